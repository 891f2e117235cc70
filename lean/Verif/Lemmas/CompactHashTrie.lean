import Verif.Lemmas.CompactHashTable
import Verif.Lemmas.IntCodes
import Verif.Model.LZ78
import Verif.Model.LZW

/-!
# The trie on the compact hash table runs in lockstep with `HashTrie`
-/

namespace Tdc.CSH

variable {t : Tab} {home : Nat → Nat}

theorem Rep.wf {M : Nat → Option Nat} (R : Rep t M) : WF t := by
  obtain ⟨⟨h, RH⟩, _⟩ := R; exact RH.1.sz.wf

theorem Rep.small {M : Nat → Option Nat} (R : Rep t M) : t.log ≤ 17 := by
  obtain ⟨⟨h, RH⟩, _⟩ := R; exact RH.1.sz.small

theorem Rep.size_lt {M : Nat → Option Nat} (R : Rep t M) : t.size < 65536 := by
  obtain ⟨⟨h, RH⟩, hs⟩ := R
  have := RH.1.sz.capS
  omega

theorem RefTo.get {M : Nat → Option Nat} (wf : WF t) {key : Nat} {h : Handle} (r : RefTo t M key h) :
    ∃ q x, hget t h = .ok (q, x) ∧ M key = some x := by
  obtain ⟨p, q, x, h1, h2, h3, _⟩ := r
  exact ⟨q, x, by rw [h2]; exact hget_loc wf h1, h3⟩

/-- Looking up a key that is in the table. -/
theorem Rep.insertCore_found {M : Nat → Option Nat} (R : Rep t M) {key x : Nat} (val : Nat) (hk : key < 2 ^ t.width)
    (hx : M key = some x) : ∃ hd, insertCore t key val = .ok (t, hd, true) ∧ RefTo t M key hd := by
  obtain ⟨⟨home, RH⟩, hsz⟩ := R
  have I := RH.1
  have hia := decompose_lt t key
  obtain ⟨e, he, hen⟩ := I.exists_empty (by omega)
  have L := I.linv e he hen
  obtain ⟨h, q, ⟨p, p1, p2, p3⟩, hc⟩ := (RH.2.2 key x).mp hx
  rw [← p3] at hc
  obtain ⟨e1, e2⟩ := (RH.key hk p1 p2).mp hc
  obtain ⟨y0, hy0, rfl⟩ : ∃ x < t.cap, p = lin t.cap e x := ⟨rel t.cap e p, rel_lt _ (cap_pos t), (lin_rel he p1).symm⟩
  have hv := (L.v_iff (rel t.cap e (t.decompose key).1) (rel_lt _ (cap_pos t))).mpr ⟨y0, hy0, by rw [p2]; rfl, by rw [e1]⟩
  rw [lin_rel he hia] at hv
  have hio : (slot t (t.decompose key).1).isSome = true := by
    obtain ⟨y, y1, y2, y3⟩ := (L.v_iff (rel t.cap e (t.decompose key).1) (rel_lt _ (cap_pos t))).mp
      (by rw [lin_rel he hia]; exact hv)
    have h1 := L.le y y1 y2
    have := L.full y y1 y2 (rel t.cap e (t.decompose key).1) (by omega) (by omega)
    rw [lin_rel he hia] at this; exact this
  obtain ⟨s, n, z, F, hsg⟩ := I.search_at he hen hia hio
  obtain ⟨hsn, hgrp⟩ := F.grp hv
  rw [setV_self I.sz hia hv] at hsg
  have hzc := F.zc
  have hnz := F.nz
  rw [CSH.insertCore]
  simp only
  rw [sexists_ok I.sz.wf (I.sz.bkt hia), hio, bind_ok]
  simp only [Bool.not_true, Bool.false_eq_true, if_false]
  rw [vget_V I.sz hia, hv, bind_ok]
  simp only [if_true]
  rw [hsg, bind_ok]
  simp only
  rcases searchIn_spec I.sz he (t.decompose key).2 n (by omega) (n - s) (t.cap + 1) s (by omega) (by omega)
    (fun y h1 h2 => ((hgrp y (by omega)).mpr ⟨h1, h2⟩).1) with ⟨y, x', y1, y2, y3, y4⟩ | ⟨y1, y2⟩
  · rw [y4, bind_ok]
    have hkey := (RH.key hk (lin_lt _ (cap_pos t)) y3).mpr ⟨((hgrp y (by omega)).mpr ⟨y1, y2⟩).2, rfl⟩
    exact ⟨_, rfl, RH.refTo hsz (lin_lt _ (cap_pos t)) y3 hkey⟩
  · exfalso
    have := (hgrp y0 hy0).mp ⟨by rw [p2]; rfl, e1⟩
    exact y1 y0 x this.1 this.2 (by rw [p2, e2])

/-! ## Keys -/

theorem createNode_inj {p p' : Nat} {c c' : UInt8} (h : createNode p c = createNode p' c') : p = p' ∧ c = c' := by
  simp only [createNode, Nat.shiftLeft_eq] at h
  have h1 := c.toNat_lt
  have h2 := c'.toNat_lt
  have : p = p' ∧ c.toNat = c'.toNat := by omega
  exact ⟨this.1, UInt8.toNat_inj.mp this.2⟩

theorem createNode_lt {p : Nat} (hp : p < 2 ^ 32) (c : UInt8) : createNode p c < 2 ^ 64 := by
  simp only [createNode, Nat.shiftLeft_eq]
  have h1 := c.toNat_lt
  omega

/-- The map that the keys of a `HashTrie` stand for. -/
def kmap (k : List (Nat × UInt8)) (key : Nat) : Option Nat := k.findIdx? fun e => createNode e.1 e.2 == key

theorem kmap_node (k : List (Nat × UInt8)) (p : Nat) (c : UInt8) :
    kmap k (createNode p c) = k.findIdx? (· == (p, c)) := by
  rw [kmap]
  congr 1
  funext e
  rw [Bool.eq_iff_iff]
  simp only [beq_iff_eq]
  constructor
  · intro h
    have := createNode_inj h
    exact Prod.ext this.1 this.2
  · rintro rfl; rfl

theorem kmap_append {k : List (Nat × UInt8)} {p : Nat} {c : UInt8} (h : kmap k (createNode p c) = none) :
    kmap (k ++ [(p, c)]) = upd (kmap k) (createNode p c) k.length := by
  funext key
  simp only [upd]
  by_cases hk : key = createNode p c
  · rw [if_pos hk, hk]
    rw [kmap] at h ⊢
    rw [List.findIdx?_append, h]
    simp
  · rw [if_neg hk, kmap, kmap, List.findIdx?_append]
    cases List.findIdx? (fun e => createNode e.1 e.2 == key) k with
    | some i => rfl
    | none => simp [Ne.symm hk]

theorem upd_upd (M : Nat → Option Nat) (key x y : Nat) : upd (upd M key x) key y = upd M key y := by
  funext k; simp only [upd]; split <;> rfl

theorem upd_self (M : Nat → Option Nat) (key x : Nat) : upd M key x key = some x := by simp [upd]

/-! ## One step -/

/-- The trie holds the nodes `k`. -/
structure CRel (s : CTrie) (k : List (Nat × UInt8)) : Prop where
  width : s.tab.width = s.kw
  log : 1 ≤ s.tab.log
  rep : Rep s.tab (kmap k)
  size : s.tab.size = k.length

theorem trieIndex_mono {s : CTrie} {key : Nat} {r : CTrie × Handle} (h : trieIndex true s key = .ok r) :
    trieIndex false s key = .ok r := by
  rw [trieIndex] at h ⊢
  simp only [Bool.true_and, Bool.false_and, Bool.false_eq_true, if_false, if_true] at h ⊢
  split at h
  · exact absurd h (by simp)
  · obtain ⟨⟨t, hd⟩, h1, h2⟩ := bind_eq_ok.mp h
    rw [h1, bind_ok]
    obtain ⟨⟨_, hd', _⟩, h3, h4⟩ := bind_eq_ok.mp h2
    simp only at h4 ⊢
    split at h4
    · exact h4
    · exact absurd h4 (by simp)

/-- The condition under which the reference returned by `index` can be trusted: the run is guarded, or the table has at
least 128 positions and is not about to outgrow its buckets. -/
def Safe (b : Bool) (s : CTrie) (k : List (Nat × UInt8)) : Prop := b = true ∨ (7 ≤ s.tab.log ∧ k.length + 1 < 65536)

theorem trieIndex_spec {b : Bool} {s s' : CTrie} {k : List (Nat × UInt8)} (R : CRel s k) (hb : Safe b s k) {key : Nat}
    {h : Handle} (hk : key < 2 ^ 64) (hok : trieIndex b s key = .ok (s', h)) :
    s'.tab.width = s'.kw ∧ s.tab.log ≤ s'.tab.log ∧
      ((∃ x, kmap k key = some x ∧ Rep s'.tab (kmap k) ∧ s'.tab.size = k.length ∧ RefTo s'.tab (kmap k) key h) ∨
       (kmap k key = none ∧ Rep s'.tab (upd (kmap k) key 0) ∧ s'.tab.size = k.length + 1 ∧
        RefTo s'.tab (upd (kmap k) key 0) key h)) := by
  have hsmall := R.rep.small
  have hkw : key < 2 ^ max s.kw (bitsFor key) :=
    lt_of_lt_of_le (lt_two_pow_bitsFor key hk) (Nat.pow_le_pow_right (by decide) (Nat.le_max_right _ _))
  rw [trieIndex] at hok
  simp only at hok
  split at hok
  · exact absurd hok (by simp)
  rename_i hg
  have hg' : growLog s.tab ≤ 17 := by
    rw [growLog]
    by_cases hn : needsCap s.tab = true
    · rw [if_pos hn]
      rcases hb with rfl | ⟨_, h2⟩
      · simp only [hn, Bool.true_and, decide_eq_true_eq] at hg
        omega
      · by_contra hc
        have h17 : s.tab.log = 17 := by omega
        simp only [needsCap, Tab.cap, h17, decide_eq_true_eq, R.size] at hn
        omega
    · rw [if_neg hn]; exact hsmall
  rcases R.rep.index hkw (by rw [R.width]; exact Nat.le_max_left _ _) R.log hg' with he | ⟨t', hd, h1, h2, h3, h4⟩
  · rw [he, bind_error] at hok; exact absurd hok (by simp)
  · rw [h1, bind_ok] at hok
    have hl : s.tab.log ≤ t'.log := by rw [h2, growLog]; split <;> omega
    rcases hb with rfl | ⟨hb7, hbk⟩
    · simp only [if_true] at hok
      obtain ⟨⟨_, hd', _⟩, k1, k2⟩ := bind_eq_ok.mp hok
      simp only at k2
      split at k2
      swap
      · exact absurd k2 (by simp)
      rename_i heq
      simp only [Except.ok.injEq, Prod.mk.injEq] at k2
      obtain ⟨rfl, rfl⟩ := k2
      refine ⟨h3, hl, ?_⟩
      rcases h4 with ⟨x, m1, m2, m3, m4⟩ | ⟨m1, m2, m3, _⟩
      · exact Or.inl ⟨x, m1, m2, by rw [m3, R.size], m4⟩
      · right
        refine ⟨m1, m2, by rw [m3, R.size], ?_⟩
        obtain ⟨hd2, n1, n2⟩ := m2.insertCore_found 0 (by rw [h3]; exact hkw) (upd_self _ _ _)
        rw [n1] at k1
        simp only [Except.ok.injEq, Prod.mk.injEq] at k1
        rw [heq, ← k1.2.1]
        exact n2
    · have hres : s' = ⟨t', max s.kw (bitsFor key)⟩ ∧ h = hd := by
        cases b with
        | false =>
          simp only [Bool.false_eq_true, if_false, Except.ok.injEq, Prod.mk.injEq] at hok
          exact ⟨hok.1.symm, hok.2.symm⟩
        | true =>
          simp only [if_true] at hok
          obtain ⟨⟨_, hd', _⟩, k1, k2⟩ := bind_eq_ok.mp hok
          simp only at k2
          split at k2
          · simp only [Except.ok.injEq, Prod.mk.injEq] at k2
            exact ⟨k2.1.symm, k2.2.symm⟩
          · exact absurd k2 (by simp)
      obtain ⟨rfl, rfl⟩ := hres
      refine ⟨h3, hl, ?_⟩
      rcases h4 with ⟨x, m1, m2, m3, m4⟩ | ⟨m1, m2, m3, m4⟩
      · exact Or.inl ⟨x, m1, m2, by rw [m3, R.size], m4⟩
      · exact Or.inr ⟨m1, m2, by rw [m3, R.size], m4 (by omega)⟩

theorem trieAddRoot_spec {s s' : CTrie} {k : List (Nat × UInt8)} (R : CRel s k) {c : UInt8} (hc : (0, c) ∉ k)
    (hok : trieAddRoot true s c = .ok s') : CRel s' (k ++ [(0, c)]) := by
  rw [trieAddRoot] at hok
  obtain ⟨⟨s1, h⟩, h1, h2⟩ := bind_eq_ok.mp hok
  simp only at h2
  obtain ⟨t2, h3, h4⟩ := bind_eq_ok.mp h2
  simp only [Except.ok.injEq] at h4
  subst h4
  have hnone : kmap k (createNode 0 c) = none := by
    rw [kmap_node, List.findIdx?_eq_none_iff]
    intro x hx
    simp only [beq_eq_false_iff_ne, ne_eq]
    rintro rfl; exact hc hx
  obtain ⟨a1, a2, ⟨x, a3, _⟩ | ⟨_, a3, a4, a5⟩⟩ := trieIndex_spec R (Or.inl rfl) (createNode_lt (by decide) c) h1
  · rw [hnone] at a3; simp at a3
  · obtain ⟨p, q, x, _, _, _, hw⟩ := a5
    obtain ⟨t', b1, b2, b3, b4, b5⟩ := hw (s.tab.size % 2 ^ 32)
    rw [h3] at b1
    simp only [Except.ok.injEq] at b1
    subst b1
    have := R.rep.size_lt
    rw [Nat.mod_eq_of_lt (by omega), upd_upd, R.size, ← kmap_append hnone] at b2
    exact ⟨by simp only [b4, a1], by simp only [b5]; exact R.log.trans a2, b2, by simp only [b3, a4, List.length_append]; rfl⟩

theorem trieFind_spec {g : Bool} {s s' : CTrie} {k : List (Nat × UInt8)} (R : CRel s k) (hb : Safe g s k) (h0 : k[0]? = some (0, 0)) {p id : Nat} {b : Bool}
    {c : UInt8} (hp : p < 2 ^ 32) (hc : c ≠ 0) (hok : trieFind g s p c = .ok (s', id, b)) :
    ∃ k', tableInsert k (p, c) = (k', id, b) ∧ CRel s' k' ∧ k'[0]? = some (0, 0) ∧ id < 2 ^ 32 ∧ s.tab.log ≤ s'.tab.log ∧
      k'.length ≤ k.length + 1 := by
  rw [trieFind] at hok
  obtain ⟨⟨s1, h⟩, h1, h2⟩ := bind_eq_ok.mp hok
  simp only at h2
  obtain ⟨e, h3, h4⟩ := bind_eq_ok.mp h2
  have hsz := R.rep.size_lt
  have hlen := R.size
  obtain ⟨a1, a2, ⟨x, a3, a4, a5, a6⟩ | ⟨a3, a4, a5, a6⟩⟩ := trieIndex_spec R hb (createNode_lt hp c) h1
  · obtain ⟨q, x', g1, g2⟩ := a6.get a4.wf
    rw [g1] at h3
    simp only [Except.ok.injEq] at h3
    subst h3
    rw [kmap_node] at g2
    have hx0 : x' ≠ 0 := by
      rintro rfl
      obtain ⟨hlt, h5, _⟩ := List.findIdx?_eq_some_iff_getElem.mp g2
      rw [List.getElem?_eq_getElem hlt] at h0
      simp only [Option.some.injEq] at h0
      rw [h0] at h5
      simp only [beq_iff_eq, Prod.mk.injEq] at h5
      exact hc h5.2.symm
    rw [if_neg hx0] at h4
    simp only [Except.ok.injEq, Prod.mk.injEq] at h4
    obtain ⟨rfl, rfl, rfl⟩ := h4
    refine ⟨k, by rw [tableInsert, g2], ⟨a1, R.log.trans a2, a4, a5⟩, h0, ?_, a2, by omega⟩
    obtain ⟨hlt, _⟩ := List.findIdx?_eq_some_iff_getElem.mp g2
    omega
  · obtain ⟨q, x', g1, g2⟩ := a6.get a4.wf
    rw [g1] at h3
    simp only [Except.ok.injEq] at h3
    subst h3
    rw [upd_self] at g2
    simp only [Option.some.injEq] at g2
    subst g2
    simp only [if_true] at h4
    obtain ⟨t2, h5, h6⟩ := bind_eq_ok.mp h4
    simp only [Except.ok.injEq, Prod.mk.injEq] at h6
    obtain ⟨rfl, rfl, rfl⟩ := h6
    obtain ⟨_, _, _, _, _, _, hw⟩ := a6
    obtain ⟨t', b1, b2, b3, b4, b5⟩ := hw (s.tab.size % 2 ^ 32)
    rw [h5] at b1
    simp only [Except.ok.injEq] at b1
    subst b1
    rw [Nat.mod_eq_of_lt (by omega), upd_upd, R.size, ← kmap_append a3] at b2
    have a3' := a3
    rw [kmap_node] at a3'
    refine ⟨k ++ [(p, c)], ?_, ⟨by simp only [b4, a1], by simp only [b5]; exact R.log.trans a2, b2, ?_⟩, ?_, ?_, ?_, by simp⟩
    · rw [tableInsert, a3', Nat.mod_eq_of_lt (by omega), hlen]
    · simp only [b3, a5, List.length_append]; rfl
    · obtain ⟨hlt, _⟩ := List.getElem?_eq_some_iff.mp h0
      rw [List.getElem?_append_left hlt]; exact h0
    · rw [Nat.mod_eq_of_lt (by omega)]; omega
    · simp only [b5]; exact a2

theorem trieFind_mono {s : CTrie} {p : Nat} {c : UInt8} {r : CTrie × Nat × Bool} (h : trieFind true s p c = .ok r) :
    trieFind false s p c = .ok r := by
  rw [trieFind] at h ⊢
  obtain ⟨x, h1, h2⟩ := bind_eq_ok.mp h
  rw [trieIndex_mono h1, bind_ok]; exact h2

theorem trieAddRoot_mono {s : CTrie} {c : UInt8} {r : CTrie} (h : trieAddRoot true s c = .ok r) :
    trieAddRoot false s c = .ok r := by
  rw [trieAddRoot] at h ⊢
  obtain ⟨x, h1, h2⟩ := bind_eq_ok.mp h
  rw [trieIndex_mono h1, bind_ok]; exact h2

/-! ## Lockstep of whole runs -/

/-- Two tries answering alike, as long as the first one does not fail; the relation may depend on the number of
characters still to come. -/
structure Lock (T1 T2 : TrieImpl) (R : Nat → T1.σ → T2.σ → Prop) (P : UInt8 → Prop) : Prop where
  root1 : ∀ s c, T1.getRoot s c = (s, c.toNat)
  root2 : ∀ s c, T2.getRoot s c = (s, c.toNat)
  find : ∀ m s k p c s' id b, R (m + 1) s k → P c → p < 2 ^ 32 → T1.findOrInsert s p c = .ok (s', id, b) →
    ∃ k', T2.findOrInsert k p c = .ok (k', id, b) ∧ R m s' k' ∧ T1.size s' ≠ 0 ∧ T2.size k' ≠ 0 ∧ id < 2 ^ 32

theorem Lock.lz78Loop {T1 T2 : TrieImpl} {R : Nat → T1.σ → T2.σ → Prop} {P : UInt8 → Prop} (L : Lock T1 T2 R P) :
    ∀ (text : List UInt8) (s : T1.σ) (k : T2.σ) (node parent fc : Nat) (c : UInt8) (es : List Emit),
    R text.length s k → (∀ c ∈ text, P c) → node < 2 ^ 32 → lz78Loop T1 0 text s node parent fc c = .ok es →
    lz78Loop T2 0 text k node parent fc c = .ok es
  | [], s, k, node, parent, fc, c, es, _, _, _, h => by
    rw [Tdc.lz78Loop] at h ⊢; exact h
  | x :: text, s, k, node, parent, fc, c, es, hR, hP, hn, h => by
    rw [Tdc.lz78Loop] at h ⊢
    cases hf : T1.findOrInsert s node x with
    | error e => rw [hf] at h; simp at h
    | ok r =>
      obtain ⟨s', id, b⟩ := r
      obtain ⟨k', h1, h2, h3, h4, h5⟩ := L.find text.length s k node x s' id b hR (hP x (by simp)) hn hf
      rw [hf] at h
      rw [h1]
      cases b with
      | true =>
        simp only [L.root1, L.root2, if_neg h3, if_neg h4] at h ⊢
        cases hr : Tdc.lz78Loop T1 0 text s' (0 : UInt8).toNat (0 : UInt8).toNat (fc + 1) x with
        | error e => rw [hr] at h; simp at h
        | ok es' =>
          rw [hr] at h
          rw [L.lz78Loop text s' k' _ _ _ _ _ h2 (fun c hc => hP c (by simp [hc])) (by decide) hr]
          exact h
      | false =>
        exact L.lz78Loop text s' k' _ _ _ _ _ h2 (fun c hc => hP c (by simp [hc])) h5 h

theorem Lock.lzwLoop {T1 T2 : TrieImpl} {R : Nat → T1.σ → T2.σ → Prop} {P : UInt8 → Prop} (L : Lock T1 T2 R P) :
    ∀ (text : List UInt8) (s : T1.σ) (k : T2.σ) (node fc : Nat) (es : List Token),
    R text.length s k → (∀ c ∈ text, P c) → node < 2 ^ 32 → lzwLoop T1 0 text s node fc = .ok es →
    lzwLoop T2 0 text k node fc = .ok es
  | [], s, k, node, fc, es, _, _, _, h => by
    rw [Tdc.lzwLoop] at h ⊢; exact h
  | x :: text, s, k, node, fc, es, hR, hP, hn, h => by
    rw [Tdc.lzwLoop] at h ⊢
    cases hf : T1.findOrInsert s node x with
    | error e => rw [hf] at h; simp at h
    | ok r =>
      obtain ⟨s', id, b⟩ := r
      obtain ⟨k', h1, h2, h3, h4, h5⟩ := L.find text.length s k node x s' id b hR (hP x (by simp)) hn hf
      rw [hf] at h
      rw [h1]
      cases b with
      | true =>
        simp only [L.root1, L.root2, if_neg h3, if_neg h4] at h ⊢
        cases hr : Tdc.lzwLoop T1 0 text s' x.toNat (fc + 1) with
        | error e => rw [hr] at h; simp at h
        | ok es' =>
          rw [hr] at h
          have hx := x.toNat_lt
          rw [L.lzwLoop text s' k' _ _ _ h2 (fun c hc => hP c (by simp [hc])) (by omega) hr]
          exact h
      | false =>
        exact L.lzwLoop text s' k' _ _ _ h2 (fun c hc => hP c (by simp [hc])) h5 h

/-- Relation of the (guarded) trie on the compact table and `HashTrie`. -/
def RHash (_ : Nat) (s : Res CTrie) (k : List (Nat × UInt8)) : Prop := ∀ s0, s = .ok s0 → CRel s0 k ∧ k[0]? = some (0, 0)

theorem lockHash (reserve : Nat) : Lock (cshTrie true reserve) (hashTrie false) RHash (fun c => c ≠ 0) where
  root1 _ _ := rfl
  root2 _ _ := rfl
  find m s k p c s' id b hR hc hp h := by
    change Res CTrie at s s'
    change List (Nat × UInt8) at k
    change s.bind (fun s => (trieFind true s p c).bind fun r => .ok (.ok r.1, r.2)) = .ok (s', id, b) at h
    obtain ⟨s0, rfl, h2⟩ := bind_eq_ok.mp h
    obtain ⟨⟨s1, i1, b1⟩, h3, h4⟩ := bind_eq_ok.mp h2
    simp only [Except.ok.injEq, Prod.mk.injEq] at h4
    obtain ⟨rfl, rfl, rfl⟩ := h4
    obtain ⟨r1, r2⟩ := hR s0 rfl
    obtain ⟨k', k1, k2, k3, k4, _⟩ := trieFind_spec r1 (Or.inl rfl) r2 hp hc h3
    have hk' : k'.length ≠ 0 := by
      intro hz; rw [List.length_eq_zero_iff] at hz; rw [hz] at k3; simp at k3
    refine ⟨k', congrArg Except.ok k1, ?_, ?_, hk', k4⟩
    · intro s2 hs2
      simp only [Except.ok.injEq] at hs2
      subst hs2
      exact ⟨k2, k3⟩
    · change s1.tab.size ≠ 0
      rw [k2.size]; exact hk'

/-- Relation of the guarded and the unguarded trie. -/
def RSame (_ : Nat) (s s' : Res CTrie) : Prop := ∀ s0, s = .ok s0 → s' = .ok s0 ∧ ∃ k, CRel s0 k ∧ k[0]? = some (0, 0)

theorem lockSame (reserve : Nat) : Lock (cshTrie true reserve) (cshTrie false reserve) RSame (fun c => c ≠ 0) where
  root1 _ _ := rfl
  root2 _ _ := rfl
  find m s k p c s' id b hR hc hp h := by
    change Res CTrie at s s' k
    change s.bind (fun s => (trieFind true s p c).bind fun r => .ok (.ok r.1, r.2)) = .ok (s', id, b) at h
    obtain ⟨s0, rfl, h2⟩ := bind_eq_ok.mp h
    obtain ⟨⟨s1, i1, b1⟩, h3, h4⟩ := bind_eq_ok.mp h2
    simp only [Except.ok.injEq, Prod.mk.injEq] at h4
    obtain ⟨rfl, rfl, rfl⟩ := h4
    obtain ⟨rfl, kk, r1, r2⟩ := hR s0 rfl
    obtain ⟨k', k1, k2, k3, k4, _⟩ := trieFind_spec r1 (Or.inl rfl) r2 hp hc h3
    have hk' : k'.length ≠ 0 := by
      intro hz; rw [List.length_eq_zero_iff] at hz; rw [hz] at k3; simp at k3
    have hsz : s1.tab.size ≠ 0 := by rw [k2.size]; exact hk'
    refine ⟨.ok s1, ?_, ?_, hsz, hsz, k4⟩
    · change (trieFind false s0 p c).bind (fun r => .ok ((.ok r.1 : Res CTrie), r.2)) = .ok ((.ok s1 : Res CTrie), i1, b1)
      rw [trieFind_mono h3, bind_ok]
    · intro s2 hs2
      simp only [Except.ok.injEq] at hs2
      subst hs2
      exact ⟨rfl, k', k2, k3⟩

/-- Relation of the trie on a compact table of at least 128 positions and `HashTrie`. -/
def RBig (m : Nat) (s : Res CTrie) (k : List (Nat × UInt8)) : Prop :=
  ∀ s0, s = .ok s0 → CRel s0 k ∧ k[0]? = some (0, 0) ∧ 7 ≤ s0.tab.log ∧ k.length + m < 65536

theorem lockBig (reserve : Nat) : Lock (cshTrie false reserve) (hashTrie false) RBig (fun c => c ≠ 0) where
  root1 _ _ := rfl
  root2 _ _ := rfl
  find m s k p c s' id b hR hc hp h := by
    change Res CTrie at s s'
    change List (Nat × UInt8) at k
    change s.bind (fun s => (trieFind false s p c).bind fun r => .ok (.ok r.1, r.2)) = .ok (s', id, b) at h
    obtain ⟨s0, rfl, h2⟩ := bind_eq_ok.mp h
    obtain ⟨⟨s1, i1, b1⟩, h3, h4⟩ := bind_eq_ok.mp h2
    simp only [Except.ok.injEq, Prod.mk.injEq] at h4
    obtain ⟨rfl, rfl, rfl⟩ := h4
    obtain ⟨r1, r2, r3, r4⟩ := hR s0 rfl
    obtain ⟨k', k1, k2, k3, k4, k5, k6⟩ := trieFind_spec r1 (Or.inr ⟨r3, by omega⟩) r2 hp hc h3
    have hk' : k'.length ≠ 0 := by
      intro hz; rw [List.length_eq_zero_iff] at hz; rw [hz] at k3; simp at k3
    refine ⟨k', congrArg Except.ok k1, ?_, ?_, hk', k4⟩
    · intro s2 hs2
      simp only [Except.ok.injEq] at hs2
      subst hs2
      exact ⟨k2, k3, r3.trans k5, by omega⟩
    · change s1.tab.size ≠ 0
      rw [k2.size]; exact hk'

/-! ## The root nodes -/

theorem newTab_ok {c w : Nat} {t : Tab} (h : newTab c w = .ok t) : ∃ l, 1 ≤ l ∧ 2 ^ l ≤ max c 2 ∧ t = emptyTab l w := by
  rw [newTab] at h
  simp only at h
  have h2 : 2 ≤ (if c < 2 then 2 else c) := by split <;> omega
  have h3 : (if c < 2 then 2 else c) ≤ max c 2 := by split <;> omega
  generalize (if c < 2 then 2 else c) = d at h h2 h3
  split at h
  · simp only [Except.ok.injEq] at h
    refine ⟨d.log2, ?_, ?_, h.symm⟩
    · rw [Nat.le_log2 (by omega)]; exact h2
    · exact (Nat.log2_self_le (by omega)).trans h3
  · simp at h

/-- the state after construction -/
def emptyC (reserve : Nat) : Res CTrie := (newTab (zeroOrPow2 reserve) 0).bind fun t => .ok ⟨t, 0⟩

theorem empty_eq (b : Bool) (reserve : Nat) : (cshTrie b reserve).empty = emptyC reserve := rfl

/-- the state after adding the root nodes for the characters below `n` -/
def rootsC (b : Bool) (s : Res CTrie) : Nat → Res CTrie
  | 0 => s
  | n + 1 => (rootsC b s n).bind fun s => trieAddRoot b s (UInt8.ofNat n)

theorem foldl_roots (b : Bool) (s : Res CTrie) : ∀ n,
    (List.range n).foldl (fun (s : Res CTrie) i => s.bind fun s => trieAddRoot b s (UInt8.ofNat i)) s = rootsC b s n
  | 0 => rfl
  | n + 1 => by
    rw [List.range_succ, List.foldl_append, foldl_roots b s n]
    rfl

theorem cRel_empty {reserve : Nat} (hr : zeroOrPow2 reserve ≤ 2 ^ 17) {s : CTrie} (h : emptyC reserve = .ok s) :
    CRel s [] := by
  rw [emptyC] at h
  obtain ⟨t, h1, h2⟩ := bind_eq_ok.mp h
  simp only [Except.ok.injEq] at h2
  subst h2
  obtain ⟨l, l1, l2, rfl⟩ := newTab_ok h1
  have l17 : l ≤ 17 := by
    by_contra hc
    have : 2 ^ 18 ≤ 2 ^ l := Nat.pow_le_pow_right (by decide) (by omega)
    omega
  refine ⟨rfl, l1, ⟨⟨_, repH_emptyTab l17 0⟩, ?_⟩, rfl⟩
  change 0 < 2 ^ l / 2
  have : 2 ^ 1 ≤ 2 ^ l := Nat.pow_le_pow_right (by decide) l1
  omega

/-- the keys of the root nodes -/
def rootKeys (n : Nat) : List (Nat × UInt8) := (List.range n).map fun i => (0, UInt8.ofNat i)

theorem rootKeys_succ (n : Nat) : rootKeys (n + 1) = rootKeys n ++ [(0, UInt8.ofNat n)] := by
  simp [rootKeys, List.range_succ]

theorem rootKeys_new {n : Nat} (hn : n < 256) : (0, UInt8.ofNat n) ∉ rootKeys n := by
  intro hm
  obtain ⟨i, hi, he⟩ := List.mem_map.mp hm
  have := congrArg (fun e : Nat × UInt8 => e.2.toNat) he
  simp only [UInt8.toNat_ofNat'] at this
  have := List.mem_range.mp hi
  omega

theorem hash_roots : ∀ (n : Nat), n ≤ 256 →
    (List.range n).foldl (fun (s : List (Nat × UInt8)) i => (tableInsert s (0, UInt8.ofNat i)).1) [] = rootKeys n
  | 0, _ => rfl
  | n + 1, hn => by
    rw [List.range_succ, List.foldl_append, hash_roots n (by omega), rootKeys_succ]
    change (tableInsert _ _).1 = _
    rw [tableInsert, List.findIdx?_eq_none_iff.mpr]
    intro x hx
    simp only [beq_eq_false_iff_ne, ne_eq]
    rintro rfl; exact rootKeys_new (by omega) hx

/-- The states after adding the root nodes for the characters below `n`. -/
theorem roots_rel {s : Res CTrie} (hs : ∀ s0, s = .ok s0 → CRel s0 []) : ∀ (n : Nat), n ≤ 256 →
    ∀ s0, rootsC true s n = .ok s0 → rootsC false s n = .ok s0 ∧ CRel s0 (rootKeys n)
  | 0, _ => fun s0 h => ⟨h, hs s0 h⟩
  | n + 1, hn => by
    intro s0 h
    rw [rootsC] at h
    obtain ⟨s1, e1, e2⟩ := bind_eq_ok.mp h
    obtain ⟨f1, f2⟩ := roots_rel hs n (by omega) s1 e1
    rw [rootKeys_succ]
    refine ⟨?_, trieAddRoot_spec f2 (rootKeys_new (by omega)) e2⟩
    rw [rootsC, f1, bind_ok]
    exact trieAddRoot_mono e2

theorem isqrtLoop_le : ∀ (k num res : Nat), isqrtLoop k num res ≤ res / 2 ^ k + (2 ^ k - 1)
  | 0, num, res => by simp [isqrtLoop]
  | k + 1, num, res => by
    have hp : 0 < 2 ^ k := Nat.pow_pos (by decide)
    have e : res / 2 ^ (k + 1) = res / 2 / 2 ^ k := by rw [Nat.pow_succ', Nat.div_div_eq_div_mul]
    rw [isqrtLoop, e, Nat.pow_succ]
    split
    · refine (isqrtLoop_le k _ _).trans ?_
      have : (res / 2 + 4 ^ k) / 2 ^ k = res / 2 / 2 ^ k + 2 ^ k := by
        rw [show (4 : Nat) ^ k = 2 ^ k * 2 ^ k by rw [← Nat.mul_pow], Nat.add_mul_div_left _ _ hp]
      omega
    · refine (isqrtLoop_le k _ _).trans ?_
      omega

theorem isqrt_le (n : Nat) : isqrt n ≤ 15 := by
  rw [isqrt]
  refine (isqrtLoop_le _ _ _).trans ?_
  split
  · decide
  split
  · decide
  split
  · decide
  split <;> decide

theorem reserve_small (n : Nat) : zeroOrPow2 (2 * isqrt n) ≤ 2 ^ 17 := by
  have h := isqrt_le n
  generalize isqrt n = m at h ⊢
  have : ∀ m : Fin 16, zeroOrPow2 (2 * m.val) ≤ 2 ^ 17 := by decide +kernel
  exact this ⟨m, by omega⟩

end Tdc.CSH
