import Verif.Model.KarpRabin
import Verif.Spec.KarpRabin
import Verif.Props.Rolling
import Mathlib.Data.Fintype.Pi
import Mathlib.Data.Fintype.Card
import Mathlib.Data.Fintype.Pigeonhole
import Mathlib.Data.Fintype.BigOperators
import Mathlib.Tactic.Ring
import Mathlib.Tactic.NormNum

/-!
# C71: the Karp-Rabin hash of windows; C63: rolling tries with any hash function of finitely many states
-/

namespace Tdc.Rolling

/-! ## The hash function -/

theorem mask64 (x : Nat) (h : x < 2 ^ 64) : x &&& maskfnc 64 = x := by
  have : maskfnc 64 = 2 ^ 64 - 1 := by decide +kernel
  rw [this, Nat.and_two_pow_sub_one_eq_mod, Nat.mod_eq_of_lt h]

theorem mask64' (x : Nat) : x % 2 ^ 64 &&& maskfnc 64 = x % 2 ^ 64 := mask64 _ (Nat.mod_lt _ (by decide))

theorem rkVal_append (key : UInt8 → Nat) (u v : List UInt8) : rkVal key (u ++ v) = rkVal key u * 37 ^ v.length + rkVal key v := by
  induction u with
  | nil => simp [rkVal]
  | cons c u ih =>
    rw [List.cons_append, rkVal, ih, rkVal, List.length_append, pow_add]
    ring

/-- **C71.** Eating characters one by one gives the value of the string. -/
theorem rk_eat (key : UInt8 → Nat) (w : List UInt8) : w.foldl (rkEat key) 0 = rkVal key w % 2 ^ 64 := by
  induction w using List.reverseRecOn with
  | nil => rfl
  | append_singleton w c ih =>
    rw [List.foldl_append, List.foldl_cons, List.foldl_nil, ih, rkEat, mask64', rkVal_append, rkB]
    simp only [rkVal, List.length_cons, List.length_nil, pow_zero, Nat.mul_one, Nat.add_zero, zero_add, pow_one]
    rw [Nat.add_mod, Nat.mul_mod, Nat.mod_mod, ← Nat.mul_mod, ← Nat.add_mod, Nat.mul_comm]

theorem rkPow_val (j x : Nat) (h : x < 2 ^ 64) : rkPow j x = x * 37 ^ j % 2 ^ 64 := by
  induction j generalizing x with
  | zero => rw [rkPow, pow_zero, Nat.mul_one, Nat.mod_eq_of_lt h]
  | succ j ih =>
    rw [rkPow, ih _ (by rw [mask64']; exact Nat.mod_lt _ (by decide)), mask64', rkB, Nat.mul_mod, Nat.mod_mod, ← Nat.mul_mod, pow_succ]
    congr 1
    ring

theorem rkBtoN_val (n : Nat) : rkBtoN n = 37 ^ n % 2 ^ 64 := by
  induction n with
  | zero => rfl
  | succ n ih => rw [rkBtoN, ih, mask64', rkB, Nat.mul_mod, Nat.mod_mod, ← Nat.mul_mod, ← pow_succ]

theorem rkHash_val (key : UInt8 → Nat) (w : List UInt8) (a : Nat) (ha : a < 2 ^ 64) : rkHash key w a = (a + rkVal key w) % 2 ^ 64 := by
  induction w generalizing a with
  | nil => rw [rkHash, rkVal, Nat.add_zero, Nat.mod_eq_of_lt ha]
  | cons c w ih =>
    rw [rkHash]
    rw [ih _ (by rw [mask64']; exact Nat.mod_lt _ (by decide)), mask64', mask64', rkPow_val _ 1 (by decide), rkVal, Nat.one_mul]
    have e : 37 ^ w.length % 2 ^ 64 * key c % 2 ^ 64 = key c * 37 ^ w.length % 2 ^ 64 := by
      rw [Nat.mul_mod, Nat.mod_mod, ← Nat.mul_mod, Nat.mul_comm]
    rw [e]
    omega

/-- **C71.** The convenience function gives the same value. -/
theorem rk_hash (key : UInt8 → Nat) (w : List UInt8) : rkHash key w 0 = w.foldl (rkEat key) 0 := by
  rw [rkHash_val key w 0 (by decide), rk_eat, Nat.zero_add]

/-- **C71.** `update` moves a window of `n` characters (4 in the code) by one: the value is that of the new window, whatever the keys. -/
theorem rk_update (key : UInt8 → Nat) (n : Nat) (out inn : UInt8) (w : List UInt8) (hn : n = w.length + 1) :
    rkUpdate key n ((out :: w).foldl (rkEat key) 0) out inn = (w ++ [inn]).foldl (rkEat key) 0 := by
  subst hn
  rw [rk_eat, rk_eat, rkUpdate, mask64', rkBtoN_val, rkB, rkVal_append, rkVal]
  simp only [rkVal, List.length_cons, List.length_nil, pow_zero, Nat.mul_one, Nat.add_zero, zero_add, pow_one]
  have e1 : 37 ^ (w.length + 1) % 2 ^ 64 * key out % 2 ^ 64 = key out * 37 ^ w.length * 37 % 2 ^ 64 := by
    rw [Nat.mul_mod, Nat.mod_mod, ← Nat.mul_mod, pow_succ]
    congr 1
    ring
  rw [e1]
  omega

/-- **C71.** Moving the window along a text: at all times the value is that of the last `n` characters. -/
theorem rk_roll (key : UInt8 → Nat) (n : Nat) (hn : 0 < n) (win text : List UInt8) (hw : win.length = n) :
    (List.zip (win ++ text) text).foldl (fun h p => rkUpdate key n h p.1 p.2) (win.foldl (rkEat key) 0) =
      ((win ++ text).drop text.length).foldl (rkEat key) 0 := by
  induction text generalizing win with
  | nil => simp
  | cons c text ih =>
    obtain ⟨a, w, rfl⟩ : ∃ a w, win = a :: w := by
      cases win with
      | nil => simp at hw; omega
      | cons a w => exact ⟨a, w, rfl⟩
    have h1 := rk_update key n a c w (by simpa using hw.symm)
    have h2 := ih (w ++ [c]) (by simpa using hw)
    rw [List.append_assoc] at h2
    simp only [List.cons_append, List.zip_cons_cons, List.foldl_cons, List.length_cons, List.drop_succ_cons, List.nil_append] at h1 h2 ⊢
    rw [h1]
    exact h2

/-! ## Rolling tries and hash functions with finitely many states -/

/-- The state after `get_rootnode(0)`, then `w`. -/
def stAfter (H : Roller) (w : List UInt8) : H.S := (0 :: w).foldl H.step H.init

theorem stAfter_snoc (H : Roller) (w : List UInt8) (c : UInt8) : stAfter H (w ++ [c]) = H.step (stAfter H w) c := by
  simp [stAfter]

/-- The value under which the trie stores the path `w`. -/
def keyOf (H : Roller) (w : List UInt8) : H.κ := H.out (stAfter H w)

theorem loop_hit {T : TrieImpl} {s s' : T.σ} {node i : Nat} {x : UInt8} (h : T.findOrInsert s node x = .ok (s', i, false)) (dms : Nat) (cs : List UInt8)
    (parent fc : Nat) (c : UInt8) : lz78Loop T dms (x :: cs) s node parent fc c = lz78Loop T dms cs s' i node fc x := by
  rw [lz78Loop, h]

theorem loop_miss {T : TrieImpl} {s s' s'' : T.σ} {node i r : Nat} {x : UInt8} (h : T.findOrInsert s node x = .ok (s', i, true)) (hr : T.getRoot s' 0 = (s'', r))
    {dms : Nat} (hs : T.size s'' ≠ dms) (cs : List UInt8) (parent fc : Nat) (c : UInt8) : lz78Loop T dms (x :: cs) s node parent fc c =
      (lz78Loop T dms cs s'' r r (fc + 1) x).map ([.tok (.range 0 fc) node, .tok .literal x.toNat] ++ ·) := by
  rw [lz78Loop, h]
  simp only [hr, if_neg hs]
  cases lz78Loop T dms cs s'' r r (fc + 1) x <;> simp [Except.map]

/-- The loop of LZ78 on a rolling trie without a bound on its size -/
def rloop (H : Roller) (cs : List UInt8) (a : H.S) (tab : List H.κ) (node parent fc : Nat) (c : UInt8) : Res (List Emit) :=
  lz78Loop (rollingTrie H) 0 cs (a, tab) node parent fc c

theorem rloop_hit (H : Roller) {a : H.S} {tab : List H.κ} {x : UInt8} {i : Nat} (h : tab.findIdx? (· == H.out (H.step a x)) = some i)
    (cs : List UInt8) (node parent fc : Nat) (c : UInt8) : rloop H (x :: cs) a tab node parent fc c = rloop H cs (H.step a x) tab i node fc x := by
  have e : (rollingTrie H).findOrInsert (a, tab) node x = .ok ((H.step a x, tab), i, false) := by
    simp only [rollingTrie, tableInsert]
    rw [h]
  exact loop_hit e 0 cs parent fc c

theorem rloop_miss (H : Roller) {a : H.S} {tab : List H.κ} {x : UInt8} (h : tab.findIdx? (· == H.out (H.step a x)) = none)
    (cs : List UInt8) (node parent fc : Nat) (c : UInt8) : rloop H (x :: cs) a tab node parent fc c =
      (rloop H cs (stAfter H []) (tab ++ [H.out (H.step a x)]) 0 0 (fc + 1) x).map ([.tok (.range 0 fc) node, .tok .literal x.toNat] ++ ·) := by
  have e : (rollingTrie H).findOrInsert (a, tab) node x = .ok ((H.init, tab ++ [H.out (H.step a x)]), tab.length, true) := by
    simp only [rollingTrie, tableInsert]
    rw [h]
  have hsz : (rollingTrie H).size (stAfter H [], tab ++ [H.out (H.step a x)]) ≠ 0 := by simp [rollingTrie]
  exact loop_miss e (r := 0) rfl hsz cs parent fc c

/-- Before another character is read, neither the parent nor the last character matter. -/
theorem rloop_irr (H : Roller) (y : UInt8) (cs : List UInt8) (a : H.S) (tab : List H.κ) (node p1 p2 fc : Nat) (c1 c2 : UInt8) :
    rloop H (y :: cs) a tab node p1 fc c1 = rloop H (y :: cs) a tab node p2 fc c2 := by
  cases h : tab.findIdx? (· == H.out (H.step a y)) with
  | some i => rw [rloop_hit H h, rloop_hit H h]
  | none => rw [rloop_miss H h, rloop_miss H h]

/-- Walking along paths that are stored: the loop arrives at the entry of the last one. -/
theorem loop_walk (H : Roller) (tab : List H.κ) (fc : Nat) (rest : List UInt8) : ∀ (v pre : List UInt8) (node parent : Nat) (c : UInt8),
    (∀ i, i < v.length → keyOf H (pre ++ v.take (i + 1)) ∈ tab) → v ≠ [] →
    ∃ par c', rloop H (v ++ rest) (stAfter H pre) tab node parent fc c =
      rloop H rest (stAfter H (pre ++ v)) tab ((tab.findIdx? (· == keyOf H (pre ++ v))).getD 0) par fc c' := by
  intro v
  induction v with
  | nil => intro _ _ _ _ _ h; exact absurd rfl h
  | cons x v ih =>
    intro pre node parent c h _
    have hx := h 0 (by simp)
    simp only [Nat.zero_add, List.take_succ_cons, List.take_zero] at hx
    have hstep : H.step (stAfter H pre) x = stAfter H (pre ++ [x]) := (stAfter_snoc H pre x).symm
    have hfi : ∃ i, tab.findIdx? (· == keyOf H (pre ++ [x])) = some i := by
      cases e : tab.findIdx? (· == keyOf H (pre ++ [x])) with
      | some i => exact ⟨i, rfl⟩
      | none =>
        rw [List.findIdx?_eq_none_iff] at e
        have := e _ hx
        simp at this
    obtain ⟨i, hi⟩ := hfi
    have hone : rloop H (x :: v ++ rest) (stAfter H pre) tab node parent fc c =
        rloop H (v ++ rest) (stAfter H (pre ++ [x])) tab i node fc x := by
      rw [List.cons_append, rloop_hit H (i := i) (by rw [hstep]; exact hi), hstep]
    rw [hone]
    by_cases hv : v = []
    · subst hv
      exact ⟨node, x, by rw [hi]; rfl⟩
    · obtain ⟨par, c', e⟩ := ih (pre ++ [x]) i node x (by
        intro j hj
        have := h (j + 1) (by simp; omega)
        rw [List.take_succ_cons] at this
        simpa using this) hv
      refine ⟨par, c', ?_⟩
      rw [e]
      simp

/-- A prefix of the text that stores the path `w ++ [c]`, if all paths of its proper prefixes are stored. -/
theorem loop_add (H : Roller) (tab : List H.κ) (hne : tab ≠ []) (w : List UInt8) (x : UInt8) (hw : ∀ i, i < w.length → keyOf H (w.take (i + 1)) ∈ tab) :
    ∃ t : List UInt8, t.length ≤ w.length + 1 ∧ ∃ tab' : List H.κ, tab ⊆ tab' ∧ tab' ≠ [] ∧ keyOf H (w ++ [x]) ∈ tab' ∧ ∀ fc c, ∃ es fc' c', ∀ rest,
      rloop H (t ++ rest) (stAfter H []) tab 0 0 fc c =
        (rloop H rest (stAfter H []) (tab') 0 0 fc' c').map (es ++ ·) := by
  by_cases hin : keyOf H (w ++ [x]) ∈ tab
  · refine ⟨[], by simp, tab, List.Subset.refl _, hne, hin, fun fc c => ⟨[], fc, c, fun rest => ?_⟩⟩
    rw [List.nil_append]
    cases rloop H rest (stAfter H []) tab 0 0 fc c <;> simp [Except.map]
  · refine ⟨w ++ [x], by simp, tab ++ [keyOf H (w ++ [x])], by simp, by simp, by simp, fun fc c => ?_⟩
    -- the insertion
    have hins : ∀ (node parent : Nat) (c : UInt8), ∃ es : List Emit, ∀ rest,
        rloop H (x :: rest) (stAfter H w) tab node parent fc c =
          (rloop H rest (stAfter H []) (tab ++ [keyOf H (w ++ [x])]) 0 0 (fc + 1) x).map (es ++ ·) := by
      intro node parent c
      refine ⟨[.tok (.range 0 fc) node, .tok .literal x.toNat], fun rest => ?_⟩
      have hfi : tab.findIdx? (· == H.out (H.step (stAfter H w) x)) = none := by
        rw [List.findIdx?_eq_none_iff]
        intro y hy
        rw [beq_eq_false_iff_ne]
        intro he
        subst he
        rw [keyOf, stAfter_snoc] at hin
        exact hin hy
      rw [rloop_miss H hfi, ← stAfter_snoc]
      rfl
    by_cases hw0 : w = []
    · subst hw0
      obtain ⟨es, he⟩ := hins 0 0 c
      exact ⟨es, fc + 1, x, fun rest => by simpa using he rest⟩
    · obtain ⟨es, he⟩ := hins ((tab.findIdx? (· == keyOf H w)).getD 0) 0 0
      refine ⟨es, fc + 1, x, fun rest => ?_⟩
      obtain ⟨par, c1, e1⟩ := loop_walk H tab fc (x :: rest) w [] 0 0 c (by simpa using hw) hw0
      rw [List.append_assoc, List.singleton_append]
      simp only [List.nil_append] at e1
      rw [e1, rloop_irr H _ _ _ _ _ par 0 _ c1 0]
      exact he rest

/-- A prefix of the text that stores all prefixes of `w`. -/
theorem loop_fill (H : Roller) (w : List UInt8) : ∀ (tab : List H.κ), tab ≠ [] →
    ∃ t : List UInt8, 2 * t.length ≤ w.length * (w.length + 1) ∧ ∃ tab' : List H.κ, tab ⊆ tab' ∧ tab' ≠ [] ∧ (∀ i, i < w.length → keyOf H (w.take (i + 1)) ∈ tab') ∧
      ∀ fc c, ∃ es fc' c', ∀ rest, rloop H (t ++ rest) (stAfter H []) tab 0 0 fc c =
        (rloop H rest (stAfter H []) (tab') 0 0 fc' c').map (es ++ ·) := by
  induction w using List.reverseRecOn with
  | nil =>
    intro tab hne
    refine ⟨[], by simp, tab, List.Subset.refl _, hne, by simp, fun fc c => ⟨[], fc, c, fun rest => ?_⟩⟩
    rw [List.nil_append]
    cases rloop H rest (stAfter H []) tab 0 0 fc c <;> simp [Except.map]
  | append_singleton w x ih =>
    intro tab hne
    obtain ⟨t1, l1, tab1, s1, n1, k1, e1⟩ := ih tab hne
    obtain ⟨t2, l2, tab2, s2, n2, k2, e2⟩ := loop_add H tab1 n1 w x k1
    refine ⟨t1 ++ t2, ?_, tab2, fun y hy => s2 (s1 hy), n2, ?_, fun fc c => ?_⟩
    · simp only [List.length_append, List.length_cons, List.length_nil, zero_add]
      have : (w.length + 1) * (w.length + 1 + 1) = w.length * (w.length + 1) + 2 * (w.length + 1) := by ring
      omega
    · intro i hi
      simp only [List.length_append, List.length_cons, List.length_nil, zero_add] at hi
      by_cases hiw : i < w.length
      · rw [List.take_append_of_le_length (by omega)]
        exact s2 (k1 i hiw)
      · rw [List.take_of_length_le (by simp; omega)]
        exact k2
    · obtain ⟨es1, f1, c1, g1⟩ := e1 fc c
      obtain ⟨es2, f2, c2, g2⟩ := e2 f1 c1
      refine ⟨es1 ++ es2, f2, c2, fun rest => ?_⟩
      rw [List.append_assoc, g1, g2]
      cases rloop H rest (stAfter H []) tab2 0 0 f2 c2 <;> simp [Except.map]

/-- Two paths with the same state of the hash function give two texts with the same compressed form. -/
theorem lz78_rolling_same (H : Roller) (n : CoderName) {u v : List UInt8} (hu : u ≠ []) (hv : v ≠ []) (huv : stAfter H u = stAfter H v) (x : UInt8) :
    ∃ t : List UInt8, 2 * t.length ≤ u.length * (u.length + 1) + v.length * (v.length + 1) ∧
      lz78Compress (rollingTrie H) n.coder 0 (t ++ u ++ [x]) = lz78Compress (rollingTrie H) n.coder 0 (t ++ v ++ [x]) := by
  have hst : (rollingTrie H).getRoot ((rollingTrie H).addRoot ((rollingTrie H).clear (rollingTrie H).empty) 0) 0 = ((stAfter H [], [keyOf H []]), 0) := rfl
  obtain ⟨t1, l1, tab1, s1, n1, k1, e1⟩ := loop_fill H u [keyOf H []] (by simp)
  obtain ⟨t2, l2, tab2, s2, n2, k2, e2⟩ := loop_fill H v tab1 n1
  refine ⟨t1 ++ t2, by simp only [List.length_append]; omega, ?_⟩
  obtain ⟨es1, f1, c1, g1⟩ := e1 0 0
  obtain ⟨es2, f2, c2, g2⟩ := e2 f1 c1
  have hkey : ∀ w : List UInt8, w ≠ [] → (∀ i, i < w.length → keyOf H (w.take (i + 1)) ∈ tab2) →
      rloop H (t1 ++ t2 ++ w ++ [x]) (stAfter H []) [keyOf H []] 0 0 0 0 =
        ((rloop H [x] (stAfter H w) tab2 ((tab2.findIdx? (· == keyOf H w)).getD 0) 0 f2 0).map (es2 ++ ·)).map (es1 ++ ·) := by
    intro w hw0 hw
    rw [List.append_assoc, List.append_assoc, g1, g2]
    obtain ⟨par, c', e⟩ := loop_walk H tab2 f2 [x] w [] 0 0 c2 (by simpa using hw) hw0
    simp only [List.nil_append] at e
    rw [e, rloop_irr H _ _ _ _ _ par 0 _ c' 0]
  have h1 := hkey u hu (fun i hi => s2 (k1 i hi))
  have h2 := hkey v hv k2
  have hk : keyOf H u = keyOf H v := by rw [keyOf, huv, keyOf]
  rw [huv, hk] at h1
  unfold rloop at h1 h2
  unfold lz78Compress
  simp only [hst]
  rw [h1, h2]

/-- **C63 (negation).** LZ78 with a rolling trie is not lossless under any hash function with fewer than `256^k` states, however the function was drawn: some text
of at most `k² + 2 k + 1` bytes is not reproduced. -/
theorem lz78_rolling_finite_lossy (H : Roller) (n : CoderName) (k M : Nat) (f : List UInt8 → Fin M) (hk : 0 < k) (hM : M < 256 ^ k)
    (hf : ∀ u v, f u = f v → stAfter H u = stAfter H v) :
    ∃ text : List UInt8, text.length ≤ k * k + 2 * k + 1 ∧
      ¬ ∃ bytes, lz78Compress (rollingTrie H) n.coder 0 text = .ok bytes ∧ lz78Decompress n.coder bytes = .ok text := by
  obtain ⟨a, b, hab, he⟩ := Fintype.exists_ne_map_eq_of_card_lt (fun g : Fin k → Fin 256 => f (List.ofFn fun i => UInt8.ofNat (g i).val)) (by
    simp only [Fintype.card_fin, Fintype.card_fun]
    exact hM)
  have hne : (List.ofFn fun i => UInt8.ofNat (a i).val) ≠ (List.ofFn fun i => UInt8.ofNat (b i).val) := by
    intro h
    apply hab
    have h := List.ofFn_injective h
    funext i
    have := congrFun h i
    have h2 := congrArg UInt8.toNat this
    simp only [UInt8.toNat_ofNat'] at h2
    ext
    have := (a i).isLt
    have := (b i).isLt
    omega
  have hs := hf _ _ he
  generalize hu : (List.ofFn fun i => UInt8.ofNat (a i).val) = u at *
  generalize hv : (List.ofFn fun i => UInt8.ofNat (b i).val) = v at *
  have lu : u.length = k := by rw [← hu]; simp
  have lv : v.length = k := by rw [← hv]; simp
  obtain ⟨t, ht, heq⟩ := lz78_rolling_same H n (u := u) (v := v) (by intro h; subst h; simp at lu; omega) (by intro h; subst h; simp at lv; omega) hs 0
  rw [lu, lv] at ht
  have hb : k * (k + 1) = k * k + k := by ring
  by_cases hc : ∃ bytes, lz78Compress (rollingTrie H) n.coder 0 (t ++ u ++ [0]) = .ok bytes ∧ lz78Decompress n.coder bytes = .ok (t ++ u ++ [0])
  · refine ⟨t ++ v ++ [0], by simp [lv]; omega, ?_⟩
    rintro ⟨bytes, h1, h2⟩
    obtain ⟨bytes', h3, h4⟩ := hc
    rw [heq, h1] at h3
    simp only [Except.ok.injEq] at h3
    subst h3
    rw [h2] at h4
    simp only [Except.ok.injEq] at h4
    apply hne
    have := List.append_cancel_right h4
    exact (List.append_cancel_left this).symm
  · exact ⟨t ++ u ++ [0], by simp [lu]; omega, hc⟩

/-- **C63 (negation).** LZ78 with the rolling trie and the Karp-Rabin hash: for every table of keys there is a text of at most 100 bytes that is not
reproduced. -/
theorem lz78_rk_lossy (key : UInt8 → Nat) (n : CoderName) : ∃ text : List UInt8, text.length ≤ 100 ∧
    ¬ ∃ bytes, lz78Compress (rollingTrie (rk key)) n.coder 0 text = .ok bytes ∧ lz78Decompress n.coder bytes = .ok text := by
  have := lz78_rolling_finite_lossy (rk key) n 9 (2 ^ 64) (fun w => ⟨rkVal key (0 :: w) % 2 ^ 64, Nat.mod_lt _ (by decide)⟩) (by decide) (by norm_num) (by
    intro u v h
    have h := congrArg Fin.val h
    simp only at h
    have h1 : stAfter (rk key) u = rkVal key (0 :: u) % 2 ^ 64 := rk_eat key (0 :: u)
    have h2 : stAfter (rk key) v = rkVal key (0 :: v) % 2 ^ 64 := rk_eat key (0 :: v)
    exact (h1.trans h).trans h2.symm)
  simpa using this

/-- **C63, part.** LZ78 with a rolling trie and any hash function reproduces a text whose substrings (behind the byte 0 of the root) have different hash
values. -/
theorem lz78_rolling_lossless_partial (H : Roller) (n : CoderName) (text : List UInt8)
    (hH : ∀ u v, u <:+: text → v <:+: text → H.hash (0 :: u) = H.hash (0 :: v) → u = v) (hlen : text.length + 1 < undefId)
    (hlast : n = .bit ∨ n = .ascii ∨ ∀ ch, text.getLast? = some ch → ch.toNat < 128) :
    ∃ bytes, lz78Compress (rollingTrie H) n.coder 0 text = .ok bytes ∧ lz78Decompress n.coder bytes = .ok text := by
  refine lz78_roundtrip_core (rollingTrie_step H) (rolling_root H) n.lawful 0 text ?_ ?_ hlen (Or.inl rfl)
  · intro d p w ch hd hpaths hp hin _ k u v hu hv heq
    have hv' := hv.det hp
    subst hv'
    have hcons : ∀ {k : Nat} {u : List UInt8}, Path d k u → ∃ u', u = 0 :: u' := by
      intro k u hu
      induction hu with
      | root h =>
        have := hd.only _ _ h
        subst this
        rw [hd.root] at h; simp at h
        exact ⟨[], by rw [h]⟩
      | child _ _ ih =>
        obtain ⟨u', rfl⟩ := ih
        exact ⟨u' ++ _, List.cons_append ..⟩
    obtain ⟨u', rfl⟩ := hcons hu
    rw [List.cons_append] at heq ⊢
    rw [hH u' (w ++ [ch]) (hpaths k u' hu).1 hin heq]
  · intro ch hch
    refine coder_schar n ch ?_
    rcases hlast with h | h | h
    · exact Or.inl h
    · exact Or.inr (Or.inl h)
    · exact Or.inr (Or.inr (h ch hch))

/-! ## Instances -/

/-- A key table. -/
def keyEx (c : UInt8) : Nat := c.toNat + 1

example : [97, 98, 99, 100, 101].foldl (rkEat keyEx) 0 = rkUpdate keyEx 5 ([90, 97, 98, 99, 100].foldl (rkEat keyEx) 0) 90 101 := by decide +kernel

/-- The substrings of `abab` have different values. -/
example : (lz78Compress (rollingTrie (rk keyEx)) CoderName.ascii.coder 0 [97, 98, 97, 98]).bind (lz78Decompress CoderName.ascii.coder) = .ok [97, 98, 97, 98] := by
  decide +kernel

end Tdc.Rolling
