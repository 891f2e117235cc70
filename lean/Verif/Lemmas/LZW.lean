import Verif.Model.LZW
import Verif.Lemmas.LZ78
import Verif.Props.Trie

namespace Tdc

/-- The decoder's table for a dictionary. -/
def toD (dms : Nat) (d : Dict) : List (Nat × UInt8) := d.map fun e => (e.1.getD dms, e.2)

theorem toD_length (dms : Nat) (d : Dict) : (toD dms d).length = d.length := by simp [toD]

theorem toD_rootDict (dms : Nat) : toD dms (rootDict 256) = lzwRoots dms := by
  simp [toD, rootDict, lzwRoots]

theorem lzwRebuild_path {dms : Nat} {d : Dict} (hd : d.WF) (hlen : d.length ≤ dms) {k : Nat} {s : List UInt8} (h : Path d k s)
    (acc : List UInt8) (fuel : Nat) (hf : k + 1 < fuel) : lzwRebuild dms (toD dms d) fuel k acc = .ok (s ++ acc) := by
  induction h generalizing acc fuel with
  | @root k c h =>
    obtain ⟨f, rfl⟩ : ∃ f, fuel = f + 2 := ⟨fuel - 2, by omega⟩
    have hk := (List.getElem?_eq_some_iff.mp h).1
    have hv : vget (toD dms d) k = .ok (dms, c) := vget_some (by simp only [toD, List.getElem?_map, h]; rfl)
    have : k ≠ dms := by omega
    simp [lzwRebuild, hv, this]
  | @child k p c s h1 h2 ih =>
    obtain ⟨f, rfl⟩ : ∃ f, fuel = f + 1 := ⟨fuel - 1, by omega⟩
    have hk := (List.getElem?_eq_some_iff.mp h1).1
    have hp := hd.par _ _ _ h1
    have hv : vget (toD dms d) k = .ok (p, c) := vget_some (by simp only [toD, List.getElem?_map, h1]; rfl)
    have : k ≠ dms := by omega
    simp only [lzwRebuild, this, if_false, hv]
    rw [ih (c :: acc) f (by omega)]
    simp

/-- The string of a node. -/
theorem lzwStep_old {dms : Nat} {d : Dict} (hd : d.WF) (hlen : d.length ≤ dms) {i k : Nat} {c : UInt8} {w : List UInt8}
    (hk : Path d k (c :: w)) :
    lzwStep dms (toD dms d) i k = .ok (if i ≠ dms then toD dms d ++ [(i, c)] else toD dms d, c :: w) := by
  have hlt := hk.lt
  have h1 : ¬ k > (toD dms d).length := by rw [toD_length]; omega
  have h2 : ¬ k = (toD dms d).length := by rw [toD_length]; omega
  simp only [lzwStep, h1, h2, if_false]
  rw [lzwRebuild_path hd hlen hk [] _ (by rw [toD_length]; omega)]
  simp [lzwFront]

theorem lzwStep_new {dms : Nat} {d : Dict} (hlen : d.length < dms) {i : Nat} {c a : UInt8} {u : List UInt8}
    (hd : d.WF) (hd' : Dict.WF (d ++ [(some i, c)])) (hi : Path d i (c :: u))
    (ha : a = c) :
    lzwStep dms (toD dms d) i d.length = .ok (toD dms d ++ [(i, c)], (c :: u) ++ [a]) := by
  subst ha
  have h1 : ¬ d.length > (toD dms d).length := by rw [toD_length]; omega
  have h2 : d.length = (toD dms d).length := by rw [toD_length]
  have hil := hi.lt
  simp only [lzwStep, h1, if_false]
  rw [if_pos h2, lzwRebuild_path hd (by omega) hi [] _ (by rw [toD_length]; omega)]
  simp only [lzwFront, List.cons_append]
  have e : toD dms d ++ [(i, a)] = toD dms (d ++ [(some i, a)]) := by simp [toD]
  rw [e]
  have hp : Path (d ++ [(some i, a)]) d.length ((a :: u) ++ [a]) :=
    .child (Dict.getElem?_append_child.mpr (Or.inr ⟨rfl, rfl⟩)) hi.mono
  rw [lzwRebuild_path hd' (by simp; omega) hp [] _ (by rw [toD_length]; simp)]
  simp

theorem lzwDecLoop_norm (c : UCoder) (dms fuel : Nat) (bits : List Bool) (D : List (Nat × UInt8)) (i ctr : Nat)
    (h : D.length = dms) : lzwDecLoop c dms fuel bits D i ctr = lzwDecLoop c dms fuel bits (lzwRoots dms) i 0 := by
  cases fuel with
  | zero => rfl
  | succ fuel =>
    have hx : (if (lzwRoots dms).length = dms then (lzwRoots dms, 0) else (lzwRoots dms, 0)) = (lzwRoots dms, 0) := by
      split <;> rfl
    simp only [lzwDecLoop, h, hx, if_true]

theorem lzwDecLoop_step (c : UCoder) (dms fuel : Nat) (r : Rng) (k : Nat) (bits : List Bool) (D D' : List (Nat × UInt8)) (i ctr : Nat)
    (s t : List UInt8) (hD : D.length ≠ dms) (hne : c.enc r k ≠ [])
    (hdec : c.dec (.range 0 (ctr + 256)) (c.enc r k ++ bits) = .ok (k, bits)) (hk : k < 2 ^ 32)
    (hstep : lzwStep dms D i k = .ok (D', s)) (hrest : lzwDecLoop c dms fuel bits D' k (ctr + 1) = .ok t) :
    lzwDecLoop c dms (fuel + 1) (c.enc r k ++ bits) D i ctr = .ok (s ++ t) := by
  have he : (c.enc r k ++ bits).isEmpty = false := by
    cases hx : c.enc r k with
    | nil => exact absurd hx hne
    | cons a b => rfl
  rw [lzwDecLoop]
  simp only [hD, if_false, he, Bool.false_eq_true]
  rw [hdec]
  simp only [Nat.mod_eq_of_lt hk, hstep, hrest]

theorem rootDict_root (c : UInt8) : (rootDict 256)[c.toNat]? = some (none, c) := by
  have := c.toNat_lt
  have h : c.toNat < 256 := by omega
  simp [rootDict, h]

theorem rootDict_wf : (rootDict 256).WF := by
  refine ⟨?_, ?_, ?_⟩
  · intro i j p c h
    have := (rootDict_get 256 (by omega) i _ h).1; simp at this
  · intro i j c h
    have := (rootDict_get 256 (by omega) i _ h).1; simp at this
  · intro i c h
    exact (rootDict_get 256 (by omega) i _ h).2

/-- The dictionary contains the 256 roots at their places, and no other roots. -/
structure LzwDict (d : Dict) : Prop where
  wf : d.WF
  roots : ∀ c : UInt8, d[c.toNat]? = some (none, c)

theorem lzwDict_roots : LzwDict (rootDict 256) := ⟨rootDict_wf, rootDict_root⟩

theorem LzwDict.addChild {d : Dict} (h : LzwDict d) {p : Nat} {c : UInt8} (hp : p < d.length) (hf : d.find p c = none) :
    LzwDict (d ++ [(some p, c)]) :=
  ⟨h.wf.addChild hp hf, fun e => Dict.getElem?_append_child.mpr (Or.inl (h.roots e))⟩

theorem LzwDict.len {d : Dict} (h : LzwDict d) : 256 ≤ d.length := by
  have := (List.getElem?_eq_some_iff.mp (h.roots 255)).1
  have : (255 : UInt8).toNat < d.length := this
  have e : (255 : UInt8).toNat = 255 := rfl
  omega

theorem rootDict_find (p : Nat) (c : UInt8) : (rootDict 256).find p c = none := by
  cases hf : (rootDict 256).find p c with
  | none => rfl
  | some k =>
    have := (rootDict_get 256 (by omega) k _ (Dict.find_some hf)).1; simp at this

theorem rootDict_len : (rootDict 256).length = 256 := by simp [rootDict]

attribute [local irreducible] rootDict lzwRoots

/-- Ranges that the encoder (`b`) and the decoder (`a`) may use for the same code. -/
def LzwPair (dms a b : Nat) : Prop := if dms = 0 then a = b else a ≤ dms - 256 ∧ b ≤ dms - 256

theorem Path.back {d : Dict} (hd : d.WF) {e : Option Nat × UInt8} {k : Nat} {v : List UInt8}
    (hv : Path (d ++ [e]) k v) (hk : k < d.length) : Path d k v := by
  induction hv with
  | root h1 =>
    rcases Dict.getElem?_append_child.mp h1 with h1 | ⟨h1, h2⟩
    · exact .root h1
    · omega
  | child h1 h2 ih =>
    rcases Dict.getElem?_append_child.mp h1 with h1 | ⟨h1, _⟩
    · exact .child h1 (ih (by have := hd.par _ _ _ h1; omega))
    · omega

/-- What the decoder knows when it is about to read the code of the encoder's current factor `w = c0 :: w'` (`dms'` is the
decoder's limit): `D`, `i`, `ctr` against the encoder's `d`, `node`, `fc`. -/
inductive LzwInv (dms dms' : Nat) (d : Dict) (node : Nat) (w : List UInt8) : Dict → Nat → Nat → Prop
  /-- the very first code -/
  | first : d = rootDict 256 → LzwInv dms dms' d node w (rootDict 256) dms' 0
  /-- the decoder lags by one entry -/
  | lag {D : Dict} {i ctr : Nat} {c0 : UInt8} {w' : List UInt8} : D.WF → d = D ++ [(some i, c0)] → w = c0 :: w' →
      (dms = 0 → ctr = d.length - 256) → ctr ≤ D.length + 1 - 256 → LzwInv dms dms' d node w D i ctr
  /-- the encoder has just reset its dictionary -/
  | reset {D : Dict} {i ctr : Nat} {c0 : UInt8} : dms ≠ 0 → LzwDict D → D.length + 1 = dms' → i < D.length → d = rootDict 256 →
      w = [c0] → node = c0.toNat → ctr ≤ D.length + 1 - 256 → LzwInv dms dms' d node w D i ctr

theorem lzw_main {T : TrieImpl} {R : T.σ → Dict → Option Nat → Prop} {ok : Dict → Nat → UInt8 → Prop}
    (sim : TrieSim T R ok) {c : UCoder}
    (hne : ∀ r v, r.Has v → c.enc r v ≠ []) (dms : Nat) (text : List UInt8)
    (hdec : ∀ a b v rest, LzwPair dms a b → v ≤ b + 256 → b + 256 < undefId →
      c.dec (.range 0 (a + 256)) (c.enc (.range 0 (b + 256)) v ++ rest) = .ok (v, rest))
    (hok : ∀ d p w ch, LzwDict d → (∀ k s, Path d k s → tri (s.length - 1) ≤ 2 * text.length ∧ (s <:+: text ∨ s.length = 1)) →
      Path d p w → w ++ [ch] <:+: text → tri w.length ≤ 2 * text.length → ok d p ch)
    (hlen : text.length + 257 < undefId) (hdms : dms = 0 ∨ 257 ≤ dms ∧ dms ≤ undefId)
    (hrst : dms ≠ 0 → TrieReset T R)
    (cs : List UInt8) :
    ∀ (pre : List UInt8) (s : T.σ) (d : Dict) (node : Nat) (w : List UInt8) (D : Dict) (i ctr : Nat),
      text = pre ++ w ++ cs → R s d (some node) → LzwDict d → Path d node w →
      (∀ k s, Path d k s → tri (s.length - 1) ≤ 2 * pre.length ∧ (s <:+: text ∨ s.length = 1)) →
      d.length ≤ pre.length + 256 →
      (dms ≠ 0 → d.length < dms) →
      LzwInv dms (if dms = 0 then undefId else dms) d node w D i ctr →
      ∃ es, lzwLoop T dms cs s node (d.length - 256) = .ok es ∧
        ∀ fuel, (c.encAll es).length < fuel →
          lzwDecLoop c (if dms = 0 then undefId else dms) fuel (c.encAll es) (toD (if dms = 0 then undefId else dms) D) i ctr
            = .ok (w ++ cs) := by
  have hu : undefId = 2 ^ 32 - 1 := rfl
  generalize hdms' : (if dms = 0 then undefId else dms) = dms'
  have hdms'u : dms' ≤ undefId := by subst hdms'; split <;> omega
  have hdms'257 : 257 ≤ dms' := by subst hdms'; split <;> omega
  have decnil : ∀ fuel D i ctr, 0 < fuel → lzwDecLoop c dms' fuel [] D i ctr = .ok [] := by
    intro fuel D i ctr hf
    obtain ⟨f, rfl⟩ : ∃ f, fuel = f + 1 := ⟨fuel - 1, by omega⟩
    rw [lzwDecLoop]; simp
  -- one code: the decoder reproduces `w` and ends up with the encoder's dictionary `d` (or is about to reset)
  have one : ∀ (d : Dict) (node : Nat) (w : List UInt8) (D : Dict) (i ctr : Nat) (bits : List Bool) (fuel : Nat) (t : List UInt8),
      LzwDict d → d.length < undefId → Path d node w → (dms ≠ 0 → d.length < dms) → LzwInv dms dms' d node w D i ctr →
      (∀ D' ctr', (D' = d ∧ ctr' ≤ d.length + 1 - 256 ∧ (dms = 0 → ctr' = d.length - 256 + 1)) → 
        lzwDecLoop c dms' fuel bits (toD dms' D') node ctr' = .ok t) →
      lzwDecLoop c dms' (fuel + 1) (c.enc (.range 0 (d.length - 256 + 256)) node ++ bits) (toD dms' D) i ctr = .ok (w ++ t) := by
    intro d node w D i ctr bits fuel t hd hsz hp hdl hinv hcont
    have hl := hd.len
    have hnl := hp.lt
    have hnn := hne (.range 0 (d.length - 256 + 256)) node ⟨Nat.zero_le _, by show node ≤ d.length - 256 + 256; omega,
      by show d.length - 256 + 256 < 2 ^ 64; omega⟩
    have hdlt : d.length < dms' := by
      subst hdms'
      by_cases h0 : dms = 0
      · rw [if_pos h0]; exact hsz
      · rw [if_neg h0]; exact hdl h0
    obtain ⟨c0, w', rfl⟩ : ∃ c0 w', w = c0 :: w' := by
      cases w with
      | nil => exact absurd rfl hp.ne_nil
      | cons a b => exact ⟨a, b, rfl⟩
    have hnode32 : node < 2 ^ 32 := by omega
    have hpair : ∀ ctr, ctr ≤ (if dms = 0 then d.length - 256 else dms - 256) → (dms = 0 → ctr = d.length - 256) →
        LzwPair dms ctr (d.length - 256) := by
      intro ctr h1 h2
      unfold LzwPair
      split
      · rename_i h0; exact h2 h0
      · rename_i h0
        rw [if_neg h0] at h1
        have := hdl h0
        exact ⟨h1, by omega⟩
    have hdecode : ∀ ctr, LzwPair dms ctr (d.length - 256) →
        c.dec (.range 0 (ctr + 256)) (c.enc (.range 0 (d.length - 256 + 256)) node ++ bits) = .ok (node, bits) := by
      intro ctr h
      exact hdec ctr _ node bits h (by omega) (by omega)
    cases hinv with
    | first hroot =>
      subst hroot
      refine lzwDecLoop_step c dms' fuel _ node bits _ _ dms' 0 _ t ?_ hnn (hdecode 0 (hpair 0 (by omega) (by
        intro _; rw [rootDict_len]))) hnode32 (lzwStep_old hd.wf (by omega) hp) ?_
      · rw [toD_length]; omega
      · simp only [ne_eq, not_true, if_false]
        exact hcont (rootDict 256) (0 + 1) ⟨rfl, by rw [rootDict_len]; decide, by intro _; rw [rootDict_len]⟩
    | @lag _ _ _ c0' w'' hD hd1 hw hc1 hc2 =>
      simp only [List.cons.injEq] at hw
      obtain ⟨rfl, rfl⟩ := hw
      have hdD : d.length = D.length + 1 := by rw [hd1]; simp
      have hictr : LzwPair dms ctr (d.length - 256) := by
        refine hpair ctr ?_ hc1
        split
        · rename_i h0; rw [hc1 h0]; exact Nat.le_refl _
        · rename_i h0; have := hdl h0; exact Nat.le_trans hc2 (Nat.sub_le_sub_right (by omega) _)
      have hi : d[D.length]? = some (some i, c0) := by
        rw [hd1]; exact Dict.getElem?_append_child.mpr (Or.inr ⟨rfl, rfl⟩)
      have hil : i < D.length := hd.wf.par _ _ _ hi
      have hcont' := hcont d (ctr + 1) ⟨rfl, by omega, fun h0 => by rw [hc1 h0]⟩
      have e2 : toD dms' D ++ [(i, c0)] = toD dms' d := by rw [hd1]; simp [toD]
      have hwf' := hd.wf
      rw [hd1] at hwf'
      by_cases hk : node < D.length
      · have hpD : Path D node (c0 :: w') := by rw [hd1] at hp; exact hp.back hD hk
        have := lzwStep_old (dms := dms') (i := i) hD (by omega) hpD
        rw [if_pos (by omega), e2] at this
        exact lzwDecLoop_step c dms' fuel _ node bits _ _ i ctr _ t (by rw [toD_length]; omega) hnn (hdecode _ hictr)
          hnode32 this hcont'
      · have hk' : node = D.length := by omega
        subst hk'
        obtain ⟨u, hu1⟩ := hD.path i hil
        have hp2 : Path d D.length (u ++ [c0]) := .child hi (by rw [hd1]; exact hu1.mono)
        have heq := hp.det hp2
        obtain ⟨a, u', rfl⟩ : ∃ a u', u = a :: u' := by
          cases u with
          | nil => exact absurd rfl hu1.ne_nil
          | cons a b => exact ⟨a, b, rfl⟩
        simp only [List.cons_append, List.cons.injEq] at heq
        obtain ⟨rfl, rfl⟩ := heq
        have := lzwStep_new (dms := dms') (i := i) (by omega) hD hwf' hu1 rfl
        rw [e2] at this
        rw [← List.cons_append]
        exact lzwDecLoop_step c dms' fuel _ _ bits _ _ i ctr _ t (by rw [toD_length]; omega) hnn (hdecode _ hictr)
          hnode32 this hcont'
    | @reset _ _ _ c0' h0 hD hDl hil hd1 hw hnode hc2 =>
      simp only [List.cons.injEq] at hw
      obtain ⟨rfl, rfl⟩ := hw
      have hpD : Path D node [c0] := by rw [hnode]; exact .root (hD.roots c0)
      have := lzwStep_old (dms := dms') (i := i) hD.wf (by omega) hpD
      rw [if_pos (by omega)] at this
      have hdd : dms' = dms := by rw [← hdms', if_neg h0]
      refine lzwDecLoop_step c dms' fuel _ node bits _ _ i ctr _ t (by rw [toD_length]; omega) hnn (hdecode _ (hpair ctr ?_ ?_))
          hnode32 this ?_
      · rw [if_neg h0]; exact Nat.le_trans hc2 (Nat.sub_le_sub_right (by omega) _)
      · intro h; exact absurd h h0
      · rw [lzwDecLoop_norm _ _ _ _ _ _ _ (by simp [toD_length]; omega), ← toD_rootDict, ← hd1]
        refine hcont d 0 ⟨rfl, Nat.zero_le (_ - _), ?_⟩
        intro h; exact absurd h h0
  have hnnlen : ∀ (d : Dict) (node : Nat), LzwDict d → d.length < undefId → node < d.length →
      0 < (c.enc (.range 0 (d.length - 256 + 256)) node).length := by
    intro d node hd hs hn
    exact List.length_pos_of_ne_nil (hne (.range 0 (d.length - 256 + 256)) node ⟨Nat.zero_le _, by show node ≤ d.length - 256 + 256; omega,
      by show d.length - 256 + 256 < 2 ^ 64; have := hd.len; omega⟩)
  induction cs with
  | nil =>
    intro pre s d node w D i ctr htext hR hd hnode hinf hdl hdl2 hinv
    refine ⟨_, rfl, ?_⟩
    intro fuel hfuel
    have hsz : d.length < undefId := by rw [htext] at hlen; simp at hlen; omega
    simp only [UCoder.encAll, List.flatMap_cons, List.flatMap_nil] at hfuel ⊢
    obtain ⟨f, rfl⟩ : ∃ f, fuel = f + 1 := ⟨fuel - 1, by omega⟩
    refine one d node w D i ctr [] f [] hd hsz hnode hdl2 hinv ?_
    intro D' ctr' _
    refine decnil _ _ _ _ ?_
    have := hnnlen d node hd hsz hnode.lt
    rw [List.append_nil] at hfuel
    omega
  | cons ch cs ih =>
    intro pre s d node w D i ctr htext hR hd hnode hinf hdl hdl2 hinv
    have hsz : d.length < undefId := by rw [htext] at hlen; simp at hlen; omega
    have hwinf : w ++ [ch] <:+: text := ⟨pre, cs, by rw [htext]; simp⟩
    have hwp : 0 < w.length := List.length_pos_of_ne_nil hnode.ne_nil
    have hwlen : tri w.length ≤ 2 * (pre ++ w).length := by
      have := (hinf node w hnode).1
      obtain ⟨z, hz⟩ : ∃ z, w.length = z + 1 := ⟨w.length - 1, by omega⟩
      rw [hz, Nat.add_sub_cancel] at this
      rw [List.length_append, hz, tri_succ]; omega
    have hple : (pre ++ w).length ≤ text.length := by rw [htext]; simp
    have hpre : pre.length ≤ (pre ++ w).length := by rw [List.length_append]; exact Nat.le_add_right _ _
    have hk := hok d node w ch hd (fun k s h => ⟨Nat.le_trans (hinf k s h).1 (Nat.mul_le_mul_left 2 (Nat.le_trans hpre hple)),
      (hinf k s h).2⟩) hnode hwinf (Nat.le_trans hwlen (Nat.mul_le_mul_left 2 hple))
    cases hf : d.find node ch with
    | some k =>
      obtain ⟨s1, e1, e2⟩ := sim.hit s d node ch k hR hnode.lt hsz hk hf
      have hpk : Path d k (w ++ [ch]) := .child (Dict.find_some hf) hnode
      have hinv' : LzwInv dms dms' d k (w ++ [ch]) D i ctr := by
        cases hinv with
        | first h => exact .first h
        | @lag _ _ _ c0 w' a1 a2 a3 a4 a5 => exact .lag a1 a2 (w' := w' ++ [ch]) (by rw [a3]; rfl) a4 a5
        | reset h0 hD hDl hil hd1 hw hnode hc2 =>
          rw [hd1, rootDict_find] at hf; simp at hf
      obtain ⟨es, a1, a2⟩ := ih pre s1 d k (w ++ [ch]) D i ctr (by rw [htext]; simp) e2 hd hpk hinf hdl hdl2 hinv'
      refine ⟨es, by simp only [lzwLoop, e1]; exact a1, ?_⟩
      intro fuel hfu
      rw [a2 fuel hfu]; simp
    | none =>
      obtain ⟨s1, e1, e2⟩ := sim.miss s d node ch hR hnode.lt hsz hk hf
      have hd' := hd.addChild hnode.lt hf
      obtain ⟨e3, e4⟩ := sim.getRoot s1 _ ch e2 (hd'.roots ch)
      have hsize := sim.size _ _ _ e4
      simp only [List.length_append, List.length_singleton] at hsize
      have hwpos : 0 < w.length := List.length_pos_of_ne_nil hnode.ne_nil
      have hchinf : [ch] <:+: text ∨ [ch].length = 1 := Or.inr rfl
      -- continuation: the rest of the text from the new encoder state
      have key : ∃ es, (if T.size (T.getRoot s1 ch).1 = dms then lzwLoop T dms cs (lzwReset T (T.getRoot s1 ch).1) ch.toNat 0
          else lzwLoop T dms cs (T.getRoot s1 ch).1 ch.toNat (d.length - 256 + 1)) = .ok es ∧
          ∀ fuel D' ctr', (c.encAll es).length < fuel →
            (D' = d ∧ ctr' ≤ d.length + 1 - 256 ∧ (dms = 0 → ctr' = d.length - 256 + 1)) →
            lzwDecLoop c dms' fuel (c.encAll es) (toD dms' D') node ctr' = .ok (ch :: cs) := by
        by_cases hfull : T.size (T.getRoot s1 ch).1 = dms
        · have h0 : dms ≠ 0 := by omega
          have rst := hrst h0
          have hR2 : R (lzwReset T (T.getRoot s1 ch).1) (rootDict 256) (some ch.toNat) := by
            have h1 := rst.clear _ _ _ e4
            have h2 := sim.addRoots _ h1 256 (by omega)
            exact rst.any_cur _ _ _ _ h2
          have hinf2 : ∀ k s, Path (rootDict 256) k s → tri (s.length - 1) ≤ 2 * (pre ++ w).length ∧ (s <:+: text ∨ s.length = 1) := by
            intro k v hv
            cases hv with
            | root _ => exact ⟨by simp [tri], Or.inr rfl⟩
            | child h _ => have := (rootDict_get 256 (by omega) _ _ h).1; simp at this
          have hdd : dms' = dms := by rw [← hdms', if_neg h0]
          have hex : ∀ ctr', ctr' ≤ d.length + 1 - 256 → _ := fun ctr' hc' =>
            ih (pre ++ w) (lzwReset T (T.getRoot s1 ch).1) (rootDict 256) ch.toNat [ch] d node ctr'
              (by rw [htext]; simp) hR2 lzwDict_roots (.root (rootDict_root ch)) hinf2 (by rw [rootDict_len]; simp)
              (by intro _; rw [rootDict_len]; omega) (.reset h0 hd (by omega) hnode.lt rfl rfl rfl hc')
          obtain ⟨es, a1, _⟩ := hex 0 (Nat.zero_le _)
          refine ⟨es, ?_, ?_⟩
          · rw [if_pos hfull]; rw [rootDict_len] at a1; exact a1
          · rintro fuel D' ctr' hfu ⟨rfl, hc', _⟩
            obtain ⟨es', a1', a2'⟩ := hex ctr' hc'
            rw [a1] at a1'
            cases a1'
            exact a2' fuel hfu
        · have hinf' : ∀ k s, Path (d ++ [(some node, ch)]) k s → tri (s.length - 1) ≤ 2 * (pre ++ w).length ∧ (s <:+: text ∨ s.length = 1) := by
            intro k v hv
            by_cases hkl : k < d.length
            · have := hinf k v (hv.back hd.wf hkl)
              exact ⟨Nat.le_trans this.1 (Nat.mul_le_mul_left 2 hpre), this.2⟩
            · have hkl' : k = d.length := by have := hv.lt; simp at this; omega
              subst hkl'
              have : Path (d ++ [(some node, ch)]) d.length (w ++ [ch]) :=
                .child (Dict.getElem?_append_child.mpr (Or.inr ⟨rfl, rfl⟩)) hnode.mono
              rw [hv.det this]; exact ⟨by simpa using hwlen, Or.inl hwinf⟩
          have hl256 := hd.len
          have hex : ∀ ctr', ctr' ≤ d.length + 1 - 256 → (dms = 0 → ctr' = d.length - 256 + 1) → _ := fun ctr' hc' hc'' =>
            ih (pre ++ w) (T.getRoot s1 ch).1 (d ++ [(some node, ch)]) ch.toNat [ch] d node ctr'
              (by rw [htext]; simp) e4 hd' (.root (hd'.roots ch)) hinf' (by simp; omega)
              (by intro h0; simp; have := hdl2 h0; omega)
              (.lag hd.wf rfl rfl (by intro h0; rw [hc'' h0]; simp; omega) hc')
          obtain ⟨es, a1, _⟩ := hex (d.length - 256 + 1) (by omega) (fun _ => rfl)
          refine ⟨es, ?_, ?_⟩
          · rw [if_neg hfull]
            simp only [List.length_append, List.length_singleton] at a1
            rw [show d.length - 256 + 1 = d.length + 1 - 256 by omega]
            exact a1
          · rintro fuel D' ctr' hfu ⟨rfl, hc', hc''⟩
            obtain ⟨es', a1', a2'⟩ := hex ctr' hc' hc''
            rw [a1] at a1'
            cases a1'
            exact a2' fuel hfu
      obtain ⟨es, a1, a2⟩ := key
      refine ⟨(.range 0 (d.length - 256 + 256), node) :: es, ?_, ?_⟩
      · simp only [lzwLoop, e1]
        rw [show (T.getRoot s1 ch).2 = ch.toNat from e3, a1]
      · intro fuel hfu
        simp only [UCoder.encAll, List.flatMap_cons] at hfu ⊢
        have hpos := hnnlen d node hd hsz hnode.lt
        rw [List.length_append] at hfu
        obtain ⟨f, rfl⟩ : ∃ f, fuel = f + 1 := ⟨fuel - 1, by omega⟩
        exact one d node w D i ctr _ f (ch :: cs) hd hsz hnode hdl2 hinv (fun D' ctr' h => a2 f D' ctr' (by
          simp only [UCoder.encAll]; omega) h)

/-- The round trip; the hypothesis on `ok` may use that long strings need long texts. -/
theorem lzw_roundtrip_len {T : TrieImpl} {R : T.σ → Dict → Option Nat → Prop} {ok : Dict → Nat → UInt8 → Prop}
    (sim : TrieSim T R ok) (hclear : T.clear T.empty = T.empty) {c : UCoder}
    (hne : ∀ r v, r.Has v → c.enc r v ≠ []) (dms : Nat) (text : List UInt8)
    (hdec : ∀ a b v rest, LzwPair dms a b → v ≤ b + 256 → b + 256 < undefId →
      c.dec (.range 0 (a + 256)) (c.enc (.range 0 (b + 256)) v ++ rest) = .ok (v, rest))
    (hok : ∀ d p w ch, LzwDict d → (∀ k s, Path d k s → tri (s.length - 1) ≤ 2 * text.length ∧ (s <:+: text ∨ s.length = 1)) →
      Path d p w → w ++ [ch] <:+: text → tri w.length ≤ 2 * text.length → ok d p ch)
    (hlen : text.length + 257 < undefId) (hdms : dms = 0 ∨ 257 ≤ dms ∧ dms ≤ undefId)
    (hrst : dms ≠ 0 → TrieReset T R) :
    ∃ bytes, lzwCompress T c dms text = .ok bytes ∧ lzwDecompress c dms bytes = .ok text := by
  cases text with
  | nil =>
    refine ⟨_, rfl, ?_⟩
    simp only [lzwDecompress, bitsOf_toBytes]
    simp [lzwDecLoop]
  | cons ch cs =>
    have h1 := sim.addRoots T.empty sim.empty 256 (by omega)
    obtain ⟨h2, h3⟩ := sim.getRoot _ _ ch h1 (rootDict_root ch)
    obtain ⟨es, a1, a2⟩ := lzw_main sim hne dms (ch :: cs) hdec hok hlen hdms hrst cs [] _ (rootDict 256) ch.toNat [ch] (rootDict 256)
      (if dms = 0 then undefId else dms) 0 rfl h3 lzwDict_roots (.root (rootDict_root ch))
      (by
        intro k v hv
        cases hv with
        | root _ => exact ⟨by simp [tri], Or.inr rfl⟩
        | child h _ => have := (rootDict_get 256 (by omega) _ _ h).1; simp at this)
      (by rw [rootDict_len]; simp) (by intro h; rw [rootDict_len]; omega) (.first rfl)
    refine ⟨BitO.toBytes (c.encAll es), ?_, ?_⟩
    · simp only [lzwCompress]
      have hs : lzwReset T T.empty = T.addRoots T.empty 256 := by simp only [lzwReset, hclear, TrieImpl.addRoots]
      rw [hs, show (T.getRoot (T.addRoots T.empty 256) ch).2 = ch.toNat from h2]
      rw [rootDict_len] at a1
      rw [a1]
    · simp only [lzwDecompress, bitsOf_toBytes]
      rw [toD_rootDict] at a2
      exact a2 _ (by omega)

theorem lzw_roundtrip {T : TrieImpl} {R : T.σ → Dict → Option Nat → Prop} {ok : Dict → Nat → UInt8 → Prop}
    (sim : TrieSim T R ok) (hclear : T.clear T.empty = T.empty) {c : UCoder}
    (hne : ∀ r v, r.Has v → c.enc r v ≠ []) (dms : Nat) (text : List UInt8)
    (hdec : ∀ a b v rest, LzwPair dms a b → v ≤ b + 256 → b + 256 < undefId →
      c.dec (.range 0 (a + 256)) (c.enc (.range 0 (b + 256)) v ++ rest) = .ok (v, rest))
    (hok : ∀ d p w ch, LzwDict d → (∀ k s, Path d k s → s <:+: text ∨ s.length = 1) → Path d p w →
      w ++ [ch] <:+: text → ok d p ch)
    (hlen : text.length + 257 < undefId) (hdms : dms = 0 ∨ 257 ≤ dms ∧ dms ≤ undefId)
    (hrst : dms ≠ 0 → TrieReset T R) :
    ∃ bytes, lzwCompress T c dms text = .ok bytes ∧ lzwDecompress c dms bytes = .ok text :=
  lzw_roundtrip_len sim hclear hne dms text hdec
    (fun d p w ch h1 h2 h3 h4 _ => hok d p w ch h1 (fun k s h => (h2 k s h).2) h3 h4) hlen hdms hrst

end Tdc
