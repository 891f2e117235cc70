import Verif.Props.KarpRabin
import Mathlib.Data.Fintype.EquivFin

/-!
# C63: LZW with a rolling trie and any hash function of finitely many states
-/

namespace Tdc.Rolling

/-- The state of the hash function after a string -/
def stOf (H : Roller) (w : List UInt8) : H.S := w.foldl H.step H.init

theorem stOf_snoc (H : Roller) (w : List UInt8) (c : UInt8) : stOf H (w ++ [c]) = H.step (stOf H w) c := by simp [stOf]

theorem hash_stOf (H : Roller) (w : List UInt8) : H.hash w = H.out (stOf H w) := rfl

theorem wl_hit {T : TrieImpl} {s s' : T.σ} {node i : Nat} {x : UInt8} (h : T.findOrInsert s node x = .ok (s', i, false)) (dms : Nat) (cs : List UInt8)
    (fc : Nat) : lzwLoop T dms (x :: cs) s node fc = lzwLoop T dms cs s' i fc := by
  rw [lzwLoop, h]

theorem wl_miss {T : TrieImpl} {s s' s'' : T.σ} {node i r : Nat} {x : UInt8} (h : T.findOrInsert s node x = .ok (s', i, true)) (hr : T.getRoot s' x = (s'', r))
    {dms : Nat} (hs : T.size s'' ≠ dms) (cs : List UInt8) (fc : Nat) : lzwLoop T dms (x :: cs) s node fc =
      (lzwLoop T dms cs s'' r (fc + 1)).map ([(.range 0 (fc + 256), node)] ++ ·) := by
  rw [lzwLoop, h]
  simp only [hr, if_neg hs]
  cases lzwLoop T dms cs s'' r (fc + 1) <;> simp [Except.map]

theorem wl_nil {T : TrieImpl} (dms : Nat) (s : T.σ) (node fc : Nat) : lzwLoop T dms [] s node fc = .ok [(.range 0 (fc + 256), node)] := by
  rw [lzwLoop]

theorem wl_compress {T : TrieImpl} {s : T.σ} {node : Nat} {ch : UInt8} (h : T.getRoot (lzwReset T T.empty) ch = (s, node)) (c : UCoder) (dms : Nat) (cs : List UInt8) :
    lzwCompress T c dms (ch :: cs) = (lzwLoop T dms cs s node 0).bind fun es => .ok (BitO.toBytes (c.encAll es)) := by
  simp only [lzwCompress, h]
  cases lzwLoop T dms cs s node 0 <;> rfl

/-- The loop of LZW on a rolling trie without a bound on its size -/
def wloop (H : Roller) (cs : List UInt8) (a : H.S) (tab : List H.κ) (node fc : Nat) : Res (List Token) :=
  lzwLoop (rollingTrie H) 0 cs (a, tab) node fc

theorem wloop_nil (H : Roller) (a : H.S) (tab : List H.κ) (node fc : Nat) : wloop H [] a tab node fc = .ok [(.range 0 (fc + 256), node)] := by
  exact wl_nil _ _ _ _

theorem wloop_hit (H : Roller) {a : H.S} {tab : List H.κ} {x : UInt8} {i : Nat} (h : tab.findIdx? (· == H.out (H.step a x)) = some i)
    (cs : List UInt8) (node fc : Nat) : wloop H (x :: cs) a tab node fc = wloop H cs (H.step a x) tab i fc := by
  have e : (rollingTrie H).findOrInsert (a, tab) node x = .ok ((H.step a x, tab), i, false) := by
    simp only [rollingTrie, tableInsert]
    rw [h]
  exact wl_hit e 0 cs fc

theorem wloop_miss (H : Roller) {a : H.S} {tab : List H.κ} {x : UInt8} (h : tab.findIdx? (· == H.out (H.step a x)) = none)
    (cs : List UInt8) (node fc : Nat) : wloop H (x :: cs) a tab node fc =
      (wloop H cs (stOf H [x]) (tab ++ [H.out (H.step a x)]) x.toNat (fc + 1)).map ([(.range 0 (fc + 256), node)] ++ ·) := by
  have e : (rollingTrie H).findOrInsert (a, tab) node x = .ok ((H.init, tab ++ [H.out (H.step a x)]), tab.length, true) := by
    simp only [rollingTrie, tableInsert]
    rw [h]
  have hsz : (rollingTrie H).size (stOf H [x], tab ++ [H.out (H.step a x)]) ≠ 0 := by simp [rollingTrie]
  exact wl_miss e (r := x.toNat) rfl hsz cs fc

/-- The position of a stored value -/
def posOf (H : Roller) (tab : List H.κ) (w : List UInt8) : Nat := (tab.findIdx? (· == H.hash w)).getD 0

theorem find_mem (H : Roller) {tab : List H.κ} {k : H.κ} (h : k ∈ tab) : ∃ i, tab.findIdx? (· == k) = some i := by
  cases e : tab.findIdx? (· == k) with
  | some i => exact ⟨i, rfl⟩
  | none =>
    rw [List.findIdx?_eq_none_iff] at e
    have := e _ h
    simp at this

theorem find_not_mem (H : Roller) {tab : List H.κ} {k : H.κ} (h : k ∉ tab) : tab.findIdx? (· == k) = none := by
  rw [List.findIdx?_eq_none_iff]
  intro y hy
  rw [beq_eq_false_iff_ne]
  intro he
  subst he
  exact h hy

/-- Walking along stored paths -/
theorem wloop_walk (H : Roller) (tab : List H.κ) (fc : Nat) (rest : List UInt8) : ∀ (v pre : List UInt8) (node : Nat),
    (∀ i, i < v.length → H.hash (pre ++ v.take (i + 1)) ∈ tab) →
    wloop H (v ++ rest) (stOf H pre) tab node fc = wloop H rest (stOf H (pre ++ v)) tab (if v = [] then node else posOf H tab (pre ++ v)) fc := by
  intro v
  induction v with
  | nil => intro pre node _; simp
  | cons x v ih =>
    intro pre node h
    have hx := h 0 (by simp)
    simp only [Nat.zero_add, List.take_succ_cons, List.take_zero] at hx
    obtain ⟨i, hi⟩ := find_mem H hx
    rw [List.cons_append, wloop_hit H (i := i) (by rw [← stOf_snoc]; exact hi), ← stOf_snoc, ih (pre ++ [x]) i (by
      intro j hj
      have := h (j + 1) (by simp; omega)
      rw [List.take_succ_cons] at this
      simpa using this)]
    have hp : pre ++ [x] ++ v = pre ++ x :: v := by simp
    rw [hp]
    by_cases hv : v = []
    · subst hv
      simp only [if_true, List.cons_ne_nil, if_false]
      rw [posOf, hi]
      rfl
    · simp only [hv, if_false, List.cons_ne_nil]

/-- The codes of a text -/
def toks (H : Roller) (text : List UInt8) : Res (List Token) :=
  match text with
  | [] => .ok []
  | ch :: cs => wloop H cs (stOf H [ch]) (lzwReset (rollingTrie H) (rollingTrie H).empty).2 ch.toNat 0

/-- After `T`, the compressor stands at the root of `f` with the table `tab`. -/
def At (H : Roller) (T : List UInt8) (f : UInt8) (tab : List H.κ) : Prop :=
  T ≠ [] ∧ ∃ es fc, ∀ rest, toks H (T ++ rest) = (wloop H rest (stOf H [f]) tab f.toNat fc).map (es ++ ·)

theorem at_miss (H : Roller) {T : List UInt8} {e : UInt8} {tab : List H.κ} (h : At H T e tab) (w : List UInt8) (x : UInt8)
    (hw : ∀ i, i < w.length → H.hash (e :: w.take (i + 1)) ∈ tab) (hx : H.hash (e :: w ++ [x]) ∉ tab) :
    At H (T ++ w ++ [x]) x (tab ++ [H.hash (e :: w ++ [x])]) := by
  obtain ⟨h1, es, fc, h2⟩ := h
  refine ⟨by simp, es ++ [(.range 0 (fc + 256), if w = [] then e.toNat else posOf H tab (e :: w))], fc + 1, fun rest => ?_⟩
  have hx' : tab.findIdx? (· == H.out (H.step (stOf H (e :: w)) x)) = none := by
    rw [← stOf_snoc]
    exact find_not_mem H hx
  have hwalk := wloop_walk H tab fc (x :: rest) w [e] e.toNat hw
  simp only [List.singleton_append] at hwalk
  rw [List.append_assoc, List.append_assoc, List.singleton_append, h2, hwalk, wloop_miss H hx', ← stOf_snoc]
  rw [hash_stOf]
  cases wloop H rest (stOf H [x]) (tab ++ [H.out (stOf H (e :: w ++ [x]))]) x.toNat (fc + 1) <;> simp [Except.map]

/-- If different texts have different codes, every root can be reached. -/
theorem reach (H : Roller) (hinj : ∀ a b : List UInt8, a ≠ [] → b ≠ [] → toks H a = toks H b → a = b) {T : List UInt8} {e : UInt8} {tab : List H.κ}
    (h : At H T e tab) (f : UInt8) : ∃ T' tab', tab ⊆ tab' ∧ At H T' f tab' := by
  by_cases hm : ∃ k, H.hash (e :: List.replicate (k + 1) f) ∉ tab
  · classical
    have hk := Nat.find_spec hm
    have hmin := fun j hj => Nat.find_min hm (m := j) hj
    generalize Nat.find hm = k at hk hmin
    have := at_miss H h (List.replicate k f) f (by
      intro i hi
      rw [List.length_replicate] at hi
      rw [List.take_replicate, Nat.min_eq_left (by omega)]
      exact Decidable.not_not.1 (hmin i hi)) (by rwa [List.cons_append, ← List.replicate_succ'])
    exact ⟨_, _, by simp, this⟩
  · exfalso
    have hall : ∀ k, H.hash (e :: List.replicate (k + 1) f) ∈ tab := fun k => by
      by_contra hc
      exact hm ⟨k, hc⟩
    obtain ⟨h1, es, fc, h2⟩ := h
    have ht : ∀ k, toks H (T ++ List.replicate (k + 1) f) = .ok (es ++ [(.range 0 (fc + 256), posOf H tab (e :: List.replicate (k + 1) f))]) := by
      intro k
      have hwalk := wloop_walk H tab fc [] (List.replicate (k + 1) f) [e] e.toNat (by
        intro i hi
        rw [List.length_replicate] at hi
        rw [List.take_replicate, Nat.min_eq_left (by omega)]
        exact hall i)
      simp only [List.singleton_append, List.append_nil] at hwalk
      rw [h2, hwalk, wloop_nil, if_neg (by simp)]
      rfl
    have hlt : ∀ k, posOf H tab (e :: List.replicate (k + 1) f) < tab.length := by
      intro k
      obtain ⟨i, hi⟩ := find_mem H (hall k)
      rw [posOf, hi, Option.getD_some]
      exact (List.findIdx?_eq_some_iff_getElem.1 hi).1
    obtain ⟨a, b, hab, he⟩ := Finite.exists_ne_map_eq_of_infinite (fun k : Nat => (⟨_, hlt k⟩ : Fin tab.length))
    have he := congrArg Fin.val he
    simp only at he
    have := hinj (T ++ List.replicate (a + 1) f) (T ++ List.replicate (b + 1) f) (by simp [h1]) (by simp [h1]) (by rw [ht, ht, he])
    have := congrArg List.length this
    simp only [List.length_append, List.length_replicate] at this
    omega

/-- All prefixes of `f :: w` can be stored. -/
theorem fill (H : Roller) (hinj : ∀ a b : List UInt8, a ≠ [] → b ≠ [] → toks H a = toks H b → a = b) (f : UInt8) (w : List UInt8) :
    ∀ {T : List UInt8} {tab : List H.κ}, At H T f tab → ∃ T' tab', tab ⊆ tab' ∧ At H T' f tab' ∧ ∀ i, i < w.length → H.hash (f :: w.take (i + 1)) ∈ tab' := by
  induction w using List.reverseRecOn with
  | nil => intro T tab h; exact ⟨T, tab, List.Subset.refl _, h, by simp⟩
  | append_singleton w x ih =>
    intro T tab h
    obtain ⟨T1, tab1, s1, a1, k1⟩ := ih h
    have hcase : ∀ tab' : List H.κ, tab1 ⊆ tab' → H.hash (f :: w ++ [x]) ∈ tab' → ∀ i, i < (w ++ [x]).length → H.hash (f :: (w ++ [x]).take (i + 1)) ∈ tab' := by
      intro tab' hs hx i hi
      simp only [List.length_append, List.length_cons, List.length_nil, Nat.zero_add] at hi
      by_cases hiw : i < w.length
      · rw [List.take_append_of_le_length (by omega)]
        exact hs (k1 i hiw)
      · rw [List.take_of_length_le (by simp; omega)]
        exact hx
    by_cases hin : H.hash (f :: w ++ [x]) ∈ tab1
    · exact ⟨T1, tab1, s1, a1, hcase tab1 (List.Subset.refl _) hin⟩
    · have a2 := at_miss H a1 w x k1 hin
      obtain ⟨T3, tab3, s3, a3⟩ := reach H hinj a2 f
      exact ⟨T3, tab3, fun y hy => s3 (by simp [s1 hy]), a3, hcase tab3 (fun y hy => s3 (by simp [hy])) (s3 (by simp))⟩

theorem toks_not_inj (H : Roller) {f : UInt8} {u v : List UInt8} (hu : u ≠ []) (hv : v ≠ []) (hne : u ≠ v) (hs : stOf H (f :: u) = stOf H (f :: v)) :
    ∃ a b : List UInt8, a ≠ [] ∧ b ≠ [] ∧ toks H a = toks H b ∧ a ≠ b := by
  by_contra hc
  have hinj : ∀ a b : List UInt8, a ≠ [] → b ≠ [] → toks H a = toks H b → a = b := by
    intro a b ha hb hab
    by_contra hn
    exact hc ⟨a, b, ha, hb, hab, hn⟩
  have h0 : At H [f] f (lzwReset (rollingTrie H) (rollingTrie H).empty).2 := by
    refine ⟨by simp, [], 0, fun rest => ?_⟩
    rw [List.singleton_append, toks]
    cases wloop H rest (stOf H [f]) (lzwReset (rollingTrie H) (rollingTrie H).empty).2 f.toNat 0 <;> simp [Except.map]
  obtain ⟨T1, tab1, s1, a1, k1⟩ := fill H hinj f u h0
  obtain ⟨T2, tab2, s2, ⟨hT, es, fc, a2⟩, k2⟩ := fill H hinj f v a1
  have ht : ∀ w : List UInt8, w ≠ [] → (∀ i, i < w.length → H.hash (f :: w.take (i + 1)) ∈ tab2) →
      toks H (T2 ++ w) = .ok (es ++ [(.range 0 (fc + 256), posOf H tab2 (f :: w))]) := by
    intro w hw hk
    have hwalk := wloop_walk H tab2 fc [] w [f] f.toNat hk
    simp only [List.singleton_append, List.append_nil] at hwalk
    rw [a2, hwalk, wloop_nil, if_neg hw]
    rfl
  have e1 := ht u hu (fun i hi => s2 (k1 i hi))
  have e2 := ht v hv k2
  have hp : posOf H tab2 (f :: u) = posOf H tab2 (f :: v) := by rw [posOf, posOf, hash_stOf, hash_stOf, hs]
  rw [hp, ← e2] at e1
  exact hne (List.append_cancel_left (hinj _ _ (by simp [hT]) (by simp [hT]) e1))

/-- **C63 (negation).** LZW with a rolling trie is not lossless under any hash function with finitely many states, however the function was drawn. -/
theorem lzw_rolling_finite_lossy (H : Roller) (n : CoderName) (M : Nat) (f : List UInt8 → Fin M) (hf : ∀ u v, f u = f v → stOf H u = stOf H v) :
    ∃ text : List UInt8, ¬ ∃ bytes, lzwCompress (rollingTrie H) n.coder 0 text = .ok bytes ∧ lzwDecompress n.coder 0 bytes = .ok text := by
  obtain ⟨a, b, hab, he⟩ := Finite.exists_ne_map_eq_of_infinite (fun k : Nat => f (0 :: List.replicate (k + 1) 0))
  obtain ⟨x, y, hx, hy, hxy, hne⟩ := toks_not_inj H (f := 0) (u := List.replicate (a + 1) 0) (v := List.replicate (b + 1) 0) (by simp) (by simp) (by
    intro h
    have := congrArg List.length h
    simp only [List.length_replicate] at this
    omega) (hf _ _ he)
  have hcomp : ∀ t : List UInt8, t ≠ [] → lzwCompress (rollingTrie H) n.coder 0 t = (toks H t).bind fun es => .ok (BitO.toBytes (n.coder.encAll es)) := by
    intro t ht
    cases t with
    | nil => exact absurd rfl ht
    | cons ch cs =>
      have hg : (rollingTrie H).getRoot (lzwReset (rollingTrie H) (rollingTrie H).empty) ch =
          ((stOf H [ch], (lzwReset (rollingTrie H) (rollingTrie H).empty).2), ch.toNat) := by
        have hi : (lzwReset (rollingTrie H) (rollingTrie H).empty).1 = H.init := by
          have : ∀ (l : List Nat) (s : (rollingTrie H).σ), s.1 = H.init → (l.foldl (fun s i => (rollingTrie H).addRoot s (UInt8.ofNat i)) s).1 = H.init := by
            intro l
            induction l with
            | nil => intro s h; exact h
            | cons i l ih => intro s h; exact ih _ rfl
          exact this _ _ rfl
        show ((H.step (lzwReset (rollingTrie H) (rollingTrie H).empty).1 ch, (lzwReset (rollingTrie H) (rollingTrie H).empty).2), ch.toNat) = _
        rw [hi]
        rfl
      exact wl_compress hg n.coder 0 cs
  have heq : lzwCompress (rollingTrie H) n.coder 0 x = lzwCompress (rollingTrie H) n.coder 0 y := by rw [hcomp x hx, hcomp y hy, hxy]
  by_cases hc : ∃ bytes, lzwCompress (rollingTrie H) n.coder 0 x = .ok bytes ∧ lzwDecompress n.coder 0 bytes = .ok x
  · refine ⟨y, ?_⟩
    rintro ⟨bytes, h1, h2⟩
    obtain ⟨bytes', h3, h4⟩ := hc
    rw [heq, h1] at h3
    simp only [Except.ok.injEq] at h3
    subst h3
    rw [h2] at h4
    simp only [Except.ok.injEq] at h4
    exact hne h4.symm
  · exact ⟨x, hc⟩

/-- **C63 (negation).** LZW with the rolling trie and the Karp-Rabin hash: for every table of keys some text is not reproduced. -/
theorem lzw_rk_lossy (key : UInt8 → Nat) (n : CoderName) : ∃ text : List UInt8,
    ¬ ∃ bytes, lzwCompress (rollingTrie (rk key)) n.coder 0 text = .ok bytes ∧ lzwDecompress n.coder 0 bytes = .ok text :=
  lzw_rolling_finite_lossy (rk key) n (2 ^ 64) (fun w => ⟨rkVal key w % 2 ^ 64, Nat.mod_lt _ (by decide)⟩) (by
    intro u v h
    have h := congrArg Fin.val h
    have h1 : stOf (rk key) u = rkVal key u % 2 ^ 64 := rk_eat key u
    have h2 : stOf (rk key) v = rkVal key v % 2 ^ 64 := rk_eat key v
    exact (h1.trans h).trans h2.symm)

/-- **C63, part.** LZW with a rolling trie and any hash function reproduces a text if the hash tells its substrings and the single bytes apart. -/
theorem lzw_rolling_lossless_partial (H : Roller) (n : CoderName) (text : List UInt8) (hroot : ∀ a b : UInt8, H.hash [a] = H.hash [b] → a = b)
    (hH : ∀ u v : List UInt8, (u <:+: text ∨ u.length = 1) → v <:+: text → H.hash u = H.hash v → u = v) (hlen : text.length + 257 < undefId) :
    ∃ bytes, lzwCompress (rollingTrie H) n.coder 0 text = .ok bytes ∧ lzwDecompress n.coder 0 bytes = .ok text := by
  refine lzw_roundtrip_len (rollingTrie_sim H hroot) rfl n.lawful.enc_ne_nil 0 text (lawful_lzw_dec n.lawful) ?_ hlen (Or.inl rfl) (by simp)
  intro d p w ch hd hpaths hp hin htri k u v hu hv heq
  have hv' := hv.det hp
  subst hv'
  obtain ⟨_, i2⟩ := hpaths k u hu
  exact hH u _ i2 hin heq

/-- Roots are told apart if the keys are. -/
theorem rk_roots (key : UInt8 → Nat) (a b : UInt8) (h : (rk key).hash [a] = (rk key).hash [b]) : key a % 2 ^ 64 = key b % 2 ^ 64 := by
  have h1 : rkVal key [a] % 2 ^ 64 = rkVal key [b] % 2 ^ 64 := (rk_eat key [a]).symm.trans (Eq.trans h (rk_eat key [b]))
  simpa [rkVal] using h1

/-! The first hypothesis holds for the keys of `keyEx`; `aba` is reproduced. -/

theorem keyEx_inj (a b : UInt8) (h : keyEx a % 2 ^ 64 = keyEx b % 2 ^ 64) : a = b := by
  rw [← UInt8.toNat_inj]
  have ha := a.toNat_lt
  have hb := b.toNat_lt
  unfold keyEx at h
  omega

example : ∀ a b : UInt8, (rk keyEx).hash [a] = (rk keyEx).hash [b] → a = b := fun a b h => keyEx_inj a b (rk_roots keyEx a b h)

example : (match lzwCompress (rollingTrie (rk keyEx)) CoderName.ascii.coder 0 ([97, 98, 97] : List UInt8) with
    | .ok bytes => decide (lzwDecompress CoderName.ascii.coder 0 bytes = .ok ([97, 98, 97] : List UInt8))
    | _ => false) = true := by decide +kernel

end Tdc.Rolling
