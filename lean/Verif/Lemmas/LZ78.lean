import Verif.Model.LZ78
import Verif.Lemmas.Trie
import Verif.Lemmas.Coders
import Verif.Lemmas.BitIO

namespace Tdc

/-- The dictionary of an LZ78 run: a root with character 0, then children only. -/
structure Lz78Dict (d : Dict) : Prop where
  wf : d.WF
  root : d[0]? = some (none, 0)
  only : ∀ (k : Nat) (e : UInt8), d[k]? = some (none, e) → k = 0

/-- The decompressor's tables for the dictionary. -/
def dIndices (d : Dict) : List Nat := d.tail.map fun e => e.1.getD 0
def dLiterals (d : Dict) : List UInt8 := d.tail.map (·.2)

theorem Lz78Dict.get {d : Dict} {k p : Nat} {c : UInt8} (h : Lz78Dict d) (hk : d[k]? = some (some p, c)) :
    k ≠ 0 ∧ vget (dLiterals d) (k - 1) = .ok c ∧ vget (dIndices d) (k - 1) = .ok p := by
  have h0 : k ≠ 0 := by rintro rfl; rw [h.root] at hk; simp at hk
  have : d.tail[k - 1]? = some (some p, c) := by
    rw [List.getElem?_tail, show k - 1 + 1 = k by omega, hk]
  refine ⟨h0, vget_some ?_, vget_some ?_⟩
  · simp only [dLiterals, List.getElem?_map, this]; rfl
  · simp only [dIndices, List.getElem?_map, this]; rfl

theorem vget_append {α : Type} {l : List α} {i : Nat} {a b : α} (h : vget l i = .ok a) : vget (l ++ [b]) i = .ok a := by
  unfold vget at *
  cases hl : l[i]? with
  | none => rw [hl] at h; simp at h
  | some x =>
    rw [hl] at h
    rw [List.getElem?_append_left (List.getElem?_eq_some_iff.mp hl).1, hl]; exact h

/-- Following the references of an existing node yields its string. -/
theorem lz78Chain_path {d : Dict} (hd : Lz78Dict d) (x : Nat) (y : UInt8) {k : Nat} {s : List UInt8} (h : Path d k s)
    (c : UInt8) (buf : List UInt8) (fuel : Nat) (hf : k < fuel) :
    lz78Chain (dIndices d ++ [x]) (dLiterals d ++ [y]) fuel k c buf = .ok (s.tail ++ c :: buf) := by
  induction h generalizing c buf fuel with
  | root h =>
    have := hd.only _ _ h
    subst this
    obtain ⟨f, rfl⟩ : ∃ f, fuel = f + 1 := ⟨fuel - 1, by omega⟩
    simp [lz78Chain]
  | @child k p e s h1 h2 ih =>
    obtain ⟨f, rfl⟩ : ∃ f, fuel = f + 1 := ⟨fuel - 1, by omega⟩
    obtain ⟨h0, e1, e2⟩ := hd.get h1
    have hp := hd.wf.par _ _ _ h1
    simp only [lz78Chain, h0, if_false, vget_append e1, vget_append e2]
    rw [ih e (c :: buf) f (by omega)]
    have := h2.ne_nil
    cases s with
    | nil => simp at this
    | cons a b => simp

theorem Lz78Dict.addChild {d : Dict} (h : Lz78Dict d) {p : Nat} {c : UInt8} (hp : p < d.length) (hf : d.find p c = none) :
    Lz78Dict (d ++ [(some p, c)]) := by
  refine ⟨h.wf.addChild hp hf, Dict.getElem?_append_child.mpr (Or.inl h.root), ?_⟩
  intro k e hk
  rcases Dict.getElem?_append_child.mp hk with h1 | ⟨_, h2⟩
  · exact h.only k e h1
  · simp at h2

theorem Lz78Dict.ne_nil {d : Dict} (h : Lz78Dict d) : 0 < d.length :=
  (List.getElem?_eq_some_iff.mp h.root).1

theorem Lz78Dict.tables {d : Dict} (h : Lz78Dict d) (p : Nat) (c : UInt8) :
    dIndices (d ++ [(some p, c)]) = dIndices d ++ [p] ∧ dLiterals (d ++ [(some p, c)]) = dLiterals d ++ [c] ∧
    (dIndices d).length = d.length - 1 := by
  have hne : d ≠ [] := by intro e; have := h.ne_nil; simp [e] at this
  refine ⟨?_, ?_, ?_⟩
  · simp [dIndices, List.tail_append_of_ne_nil hne]
  · simp [dLiterals, List.tail_append_of_ne_nil hne]
  · simp [dIndices]

/-- One decoding step. -/
theorem lz78DecLoop_step {c : UCoder} (hc : c.Lawful) {d : Dict} (hd : Lz78Dict d) {p : Nat} {w : List UInt8}
    (hp : Path d p w) (hsz : d.length < undefId) (ch : UInt8) (bits : List Bool) (fuel : Nat) (t : List UInt8)
    (hrest : lz78DecLoop c fuel bits (dIndices d ++ [p]) (dLiterals d ++ [ch]) d.length = .ok t) :
    lz78DecLoop c (fuel + 1) (c.enc (.range 0 (d.length - 1)) p ++ (c.enc .literal ch.toNat ++ bits))
      (dIndices d) (dLiterals d) (d.length - 1) = .ok (w.tail ++ ch :: t) := by
  have hl := hp.lt
  have hu : undefId = 2 ^ 32 - 1 := rfl
  have h1 : (Rng.range 0 (d.length - 1)).Has p := by
    refine ⟨Nat.zero_le _, ?_, ?_⟩
    · show p ≤ d.length - 1; omega
    · show d.length - 1 < 2 ^ 64; omega
  have h2 : Rng.literal.Has ch.toNat := by
    have := ch.toNat_lt
    refine ⟨Nat.zero_le _, ?_, ?_⟩
    · show ch.toNat ≤ 255; omega
    · show (255 : Nat) < 2 ^ 64; omega
  have hne : (c.enc (.range 0 (d.length - 1)) p ++ (c.enc .literal ch.toNat ++ bits)).isEmpty = false := by
    have := hc.enc_ne_nil _ _ h1
    cases hx : c.enc (.range 0 (d.length - 1)) p with
    | nil => exact absurd hx this
    | cons a b => rfl
  rw [lz78DecLoop, hne]
  simp only [Bool.false_eq_true, if_false]
  rw [hc.dec_enc _ _ _ h1]
  simp only []
  rw [hc.dec_enc _ _ _ h2]
  have hmod : p % 2 ^ 32 = p := Nat.mod_eq_of_lt (by omega)
  simp only [hmod, UInt8.ofNat_toNat]
  rw [lz78Chain_path hd p ch hp ch [] _ (by
    rw [List.length_append, (hd.tables 0 0).2.2]; simp; omega)]
  simp only []
  rw [show d.length - 1 + 1 = d.length by have := hd.ne_nil; omega, hrest]
  simp

/-- Twice the number of characters that LZ78 must have read before a factor of length `n` exists. -/
def tri (n : Nat) : Nat := n * (n + 1)

theorem tri_succ (n : Nat) : tri (n + 1) = tri n + 2 * (n + 1) := by
  simp only [tri]
  rw [Nat.mul_succ, Nat.mul_comm (n + 1) (n + 1), Nat.mul_succ, Nat.mul_comm (n + 1) n]; omega

/-- Simulation of the compression loop by the decompression loop. -/
theorem lz78_main {T : TrieImpl} {R : T.σ → Dict → Option Nat → Prop} {ok : Dict → Nat → UInt8 → Prop}
    (sim : TrieStep T R ok) {c : UCoder} (hc : c.Lawful) (dms : Nat) (text : List UInt8)
    (hok : ∀ d p w ch, Lz78Dict d → (∀ k s, Path d k (0 :: s) → s <:+: text ∧ tri s.length ≤ 2 * text.length) →
      Path d p (0 :: w) → w ++ [ch] <:+: text → tri (w.length + 1) ≤ 2 * text.length → ok d p ch)
    (hsch : ∀ ch, text.getLast? = some ch → c.encSChar ch = some (c.enc .literal ch.toNat))
    (hlen : text.length + 1 < undefId) (hdms : dms = 0 ∨ text.length + 1 < dms)
    (cs : List UInt8) :
    ∀ (pre : List UInt8) (s : T.σ) (d : Dict) (node parent : Nat) (last : UInt8) (w : List UInt8),
      text = pre ++ w ++ cs → R s d (some node) → Lz78Dict d → Path d node (0 :: w) →
      (∀ k s, Path d k (0 :: s) → s <:+: text ∧ tri s.length ≤ 2 * pre.length) → d.length ≤ pre.length + 1 →
      (w ≠ [] → d[node]? = some (some parent, last) ∧ w.getLast? = some last) →
      ∃ es bits, lz78Loop T dms cs s node parent (d.length - 1) last = .ok es ∧ c.encEmits es = .ok bits ∧
        ∀ fuel, bits.length < fuel → lz78DecLoop c fuel bits (dIndices d) (dLiterals d) (d.length - 1) = .ok (w ++ cs) := by
  have decnil : ∀ fuel ix lt fc, 0 < fuel → lz78DecLoop c fuel [] ix lt fc = .ok [] := by
    intro fuel ix lt fc hf
    obtain ⟨f, rfl⟩ : ∃ f, fuel = f + 1 := ⟨fuel - 1, by omega⟩
    simp [lz78DecLoop]
  have hnn : ∀ d p, Lz78Dict d → p < d.length → d.length < undefId → ∀ ch : UInt8, 0 <
      (c.enc (.range 0 (d.length - 1)) p ++ c.enc .literal ch.toNat).length := by
    intro d p hd hp hs ch
    have := hc.enc_ne_nil (.range 0 (d.length - 1)) p ⟨Nat.zero_le _, by show p ≤ d.length - 1; omega,
      by show d.length - 1 < 2 ^ 64; have : undefId = 2 ^ 32 - 1 := rfl; omega⟩
    have := List.length_pos_of_ne_nil this
    rw [List.length_append]; omega
  induction cs with
  | nil =>
    intro pre s d node parent last w htext hR hd hnode hinf hdl hw
    by_cases hw0 : w = []
    · subst hw0
      have : node = 0 := by
        generalize hz : (0 : UInt8) :: [] = z at hnode
        cases hnode with
        | root h => exact hd.only _ _ h
        | child h h2 =>
          have := h2.ne_nil
          rename_i s
          cases s with
          | nil => simp at this
          | cons a b => cases b <;> simp at hz
      subst this
      exact ⟨[], [], by simp [lz78Loop], rfl, fun fuel hf => by simpa using decnil fuel _ _ _ (by simpa using hf)⟩
    · obtain ⟨h1, h2⟩ := hw hw0
      obtain ⟨w', rfl⟩ : ∃ w', w = w' ++ [last] := by
        obtain ⟨w', hw'⟩ := List.getLast?_eq_some_iff.mp h2
        exact ⟨w', hw'⟩
      have hpar : Path d parent (0 :: w') := by
        generalize hz : 0 :: (w' ++ [last]) = z at hnode
        cases hnode with
        | root h => rw [h] at h1; simp at h1
        | child h h3 =>
          rw [h] at h1; simp at h1
          obtain ⟨rfl, rfl⟩ := h1
          rw [← List.cons_append] at hz
          obtain ⟨rfl, _⟩ := List.append_inj' hz rfl
          exact h3
      have hn0 := (hd.get h1).1
      have hlast : text.getLast? = some last := by rw [htext]; simp
      refine ⟨[.tok (.range 0 (d.length - 1)) parent, .schar last], ?_, by simp [lz78Loop, hn0], ?_, ?_⟩
      · exact c.enc (.range 0 (d.length - 1)) parent ++ (c.enc .literal last.toNat ++ [])
      · simp [UCoder.encEmits, hsch last hlast]
      · intro fuel hf
        obtain ⟨f, rfl⟩ : ∃ f, fuel = f + 1 := ⟨fuel - 1, by omega⟩
        have hlen2 : d.length < undefId := by
          rw [htext] at hlen; simp at hlen; omega
        rw [lz78DecLoop_step hc hd hpar hlen2 last [] f [] (decnil f _ _ _ ?_)]
        · simp
        · have := hnn d parent hd hpar.lt hlen2 last
          rw [← List.append_assoc, List.append_nil] at hf
          omega
  | cons ch cs ih =>
    intro pre s d node parent last w htext hR hd hnode hinf hdl hw
    have hlen2 : d.length < undefId := by
      rw [htext] at hlen; simp at hlen; omega
    have hdlen : d.length ≤ text.length := by
      rw [htext]; simp; omega
    have hwinf : w ++ [ch] <:+: text := ⟨pre, cs, by rw [htext]; simp⟩
    have hwlen : tri (w.length + 1) ≤ 2 * (pre ++ w ++ [ch]).length := by
      have := (hinf node w hnode).2
      rw [tri_succ]; simp only [List.length_append, List.length_singleton]; omega
    have hple : (pre ++ w ++ [ch]).length ≤ text.length := by
      rw [htext]; simp
    have hpre : pre.length ≤ (pre ++ w ++ [ch]).length := by
      rw [List.length_append, List.length_append, Nat.add_assoc]; exact Nat.le_add_right _ _
    have hk := hok d node w ch hd (fun k s h => ⟨(hinf k s h).1, Nat.le_trans (hinf k s h).2 (Nat.mul_le_mul_left 2 (Nat.le_trans hpre hple))⟩) hnode hwinf
      (Nat.le_trans hwlen (Nat.mul_le_mul_left 2 hple))
    cases hf : d.find node ch with
    | some k =>
      obtain ⟨s1, e1, e2⟩ := sim.hit s d node ch k hR hnode.lt hlen2 hk hf
      have hpk : Path d k (0 :: (w ++ [ch])) := .child (Dict.find_some hf) hnode
      obtain ⟨es, bits, a1, a2, a3⟩ := ih pre s1 d k node ch (w ++ [ch]) (by rw [htext]; simp) e2 hd hpk hinf hdl
        (fun _ => ⟨Dict.find_some hf, by simp⟩)
      refine ⟨es, bits, by simp only [lz78Loop, e1]; exact a1, a2, ?_⟩
      intro fuel hfu
      rw [a3 fuel hfu]; simp
    | none =>
      obtain ⟨s1, e1, e2⟩ := sim.miss s d node ch hR hnode.lt hlen2 hk hf
      have hd' := hd.addChild hnode.lt hf
      obtain ⟨e3, e4⟩ := sim.getRoot s1 _ 0 e2 hd'.root
      have hroot : (T.getRoot s1 0).2 = 0 := e3
      have hsize := sim.size _ _ _ e4
      simp only [List.length_append, List.length_singleton] at hsize
      have hinf' : ∀ k s, Path (d ++ [(some node, ch)]) k (0 :: s) → s <:+: text ∧ tri s.length ≤ 2 * (pre ++ w ++ [ch]).length := by
        intro k v hv
        have back : ∀ k v, Path (d ++ [(some node, ch)]) k v → k < d.length → Path d k v := by
          intro k v hv
          induction hv with
          | root h1 =>
            intro hk
            rcases Dict.getElem?_append_child.mp h1 with h1 | ⟨h1, h2⟩
            · exact .root h1
            · omega
          | child h1 h2 ih =>
            intro hk
            rcases Dict.getElem?_append_child.mp h1 with h1 | ⟨h1, _⟩
            · exact .child h1 (ih (by have := hd.wf.par _ _ _ h1; omega))
            · omega
        by_cases hkl : k < d.length
        · have := hinf k v (back _ _ hv hkl)
          exact ⟨this.1, Nat.le_trans this.2 (Nat.mul_le_mul_left 2 hpre)⟩
        · have hkl' : k = d.length := by have := hv.lt; simp at this; omega
          subst hkl'
          have : Path (d ++ [(some node, ch)]) d.length (0 :: (w ++ [ch])) :=
            .child (Dict.getElem?_append_child.mpr (Or.inr ⟨rfl, rfl⟩)) hnode.mono
          have := hv.det this
          simp at this; rw [this]; exact ⟨hwinf, by simpa using hwlen⟩
      obtain ⟨es, bits, a1, a2, a3⟩ := ih (pre ++ w ++ [ch]) (T.getRoot s1 0).1 _ 0 0 ch [] (by rw [htext]; simp) e4 hd'
        (.root hd'.root) hinf' (by simp; omega) (by simp)
      refine ⟨.tok (.range 0 (d.length - 1)) node :: .tok .literal ch.toNat :: es,
        c.enc (.range 0 (d.length - 1)) node ++ (c.enc .literal ch.toNat ++ bits), ?_, ?_, ?_⟩
      · simp only [lz78Loop, e1]
        have hnd : ¬ T.size (T.getRoot s1 0).1 = dms := by
          rw [hsize]; omega
        rw [if_neg hnd, hroot]
        simp only [List.length_append, List.length_singleton] at a1
        rw [show d.length - 1 + 1 = d.length + 1 - 1 by have := hd.ne_nil; omega, a1]
      · simp [UCoder.encEmits, a2]
      · intro fuel hfu
        obtain ⟨f, rfl⟩ : ∃ f, fuel = f + 1 := ⟨fuel - 1, by omega⟩
        have hb : bits.length < f := by
          have := hnn d node hd hnode.lt hlen2 ch
          simp only [List.length_append] at hfu this
          omega
        have := a3 f hb
        rw [(hd.tables node ch).1, (hd.tables node ch).2.1] at this
        simp only [List.length_append, List.length_singleton, Nat.add_sub_cancel, List.nil_append] at this
        rw [lz78DecLoop_step hc hd hnode hlen2 ch bits f cs this]
        simp

/-- The round trip, from the state after the root has been added. -/
theorem lz78_roundtrip_core {T : TrieImpl} {R : T.σ → Dict → Option Nat → Prop} {ok : Dict → Nat → UInt8 → Prop}
    (sim : TrieStep T R ok) (h1 : R (T.addRoot (T.clear T.empty) 0) [(none, 0)] none) {c : UCoder} (hc : c.Lawful)
    (dms : Nat) (text : List UInt8)
    (hok : ∀ d p w ch, Lz78Dict d → (∀ k s, Path d k (0 :: s) → s <:+: text ∧ tri s.length ≤ 2 * text.length) →
      Path d p (0 :: w) → w ++ [ch] <:+: text → tri (w.length + 1) ≤ 2 * text.length → ok d p ch)
    (hsch : ∀ ch, text.getLast? = some ch → c.encSChar ch = some (c.enc .literal ch.toNat))
    (hlen : text.length + 1 < undefId) (hdms : dms = 0 ∨ text.length + 1 < dms) :
    ∃ bytes, lz78Compress T c dms text = .ok bytes ∧ lz78Decompress c bytes = .ok text := by
  have hd : Lz78Dict [(none, 0)] := by
    refine ⟨Dict.WF.nil.addRoot (c := 0) rfl, rfl, ?_⟩
    intro k e h
    have := (List.getElem?_eq_some_iff.mp h).1
    simpa using this
  obtain ⟨h2, h3⟩ := sim.getRoot _ _ 0 h1 rfl
  obtain ⟨es, bits, a1, a2, a3⟩ := lz78_main sim hc dms text hok hsch hlen hdms text [] _ _ 0 0 0 [] rfl h3 hd
    (.root rfl) (by
      intro k v hv
      have hk := hv.lt
      simp at hk; subst hk
      have := hv.det (.root (c := 0) rfl)
      simp at this; subst this; exact ⟨List.nil_infix, by simp [tri]⟩) (by simp) (by simp)
  refine ⟨BitO.toBytes bits, ?_, ?_⟩
  · simp only [lz78Compress]
    have h2' : (T.getRoot (T.addRoot (T.clear T.empty) 0) 0).2 = 0 := h2
    rw [h2']
    simp only [List.length_singleton, Nat.sub_self, List.nil_append] at a1
    rw [a1]; simp only [a2]
  · simp only [lz78Decompress, bitsOf_toBytes]
    exact a3 _ (by omega)

theorem lz78_roundtrip {T : TrieImpl} {R : T.σ → Dict → Option Nat → Prop} {ok : Dict → Nat → UInt8 → Prop}
    (sim : TrieSim T R ok) (hclear : T.clear T.empty = T.empty) {c : UCoder} (hc : c.Lawful) (dms : Nat) (text : List UInt8)
    (hok : ∀ d p w ch, Lz78Dict d → (∀ k s, Path d k (0 :: s) → s <:+: text) → Path d p (0 :: w) →
      w ++ [ch] <:+: text → ok d p ch)
    (hsch : ∀ ch, text.getLast? = some ch → c.encSChar ch = some (c.enc .literal ch.toNat))
    (hlen : text.length + 1 < undefId) (hdms : dms = 0 ∨ text.length + 1 < dms) :
    ∃ bytes, lz78Compress T c dms text = .ok bytes ∧ lz78Decompress c bytes = .ok text :=
  lz78_roundtrip_core sim.step (by rw [hclear]; exact sim.addRoot _ _ 0 sim.empty (by simp) rfl) hc dms text
    (fun d p w ch h1 h2 h3 h4 _ => hok d p w ch h1 (fun k s h => (h2 k s h).1) h3 h4) hsch hlen hdms

end Tdc
