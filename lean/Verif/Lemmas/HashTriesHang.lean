import Verif.Lemmas.HashTriesEnd

/-!
# The compressions which do not end
-/

namespace Tdc.HT

open HM

/-- The key of a call of `find_or_insert` of the hash tries, and the node after it (LZ78Compressor.hpp:97-122). -/
def hkey (node : Nat) (c : UInt8) : Nat × UInt8 := (node, c)
def hnext (_node : Nat) (_c : UInt8) (id : Nat) (b : Bool) : Nat := if b then 0 else id

/-- The same for the rolling tries: the state of the roller after `get_rootnode(0)`. -/
def rkey (H : Roller) (st : H.S) (c : UInt8) : H.κ := H.out (H.step st c)
def rnext (H : Roller) (st : H.S) (c : UInt8) (_id : Nat) (b : Bool) : H.S := if b then H.step H.init 0 else H.step st c

theorem lz78Loop_cons (T : TrieImpl) (dms : Nat) (c : UInt8) (cs : List UInt8) (s : T.σ) (node parent fc : Nat) (c0 : UInt8) :
    lz78Loop T dms (c :: cs) s node parent fc c0 =
    match T.findOrInsert s node c with
    | .error e => .error e
    | .ok (s, _, true) =>
      let (s, root) := T.getRoot s 0
      let rest := if T.size s = dms then lz78Loop T dms cs (T.addRoot (T.clear s) 0) root root 0 c
        else lz78Loop T dms cs s root root (fc + 1) c
      match rest with
      | .error e => .error e
      | .ok es => .ok (.tok (.range 0 fc) node :: .tok .literal c.toNat :: es)
    | .ok (s, child, false) => lz78Loop T dms cs s child node fc c := by
  rw [lz78Loop]
  rfl

theorem lz78Loop_tabRun {D : IdTab (Nat × UInt8)} {Rel : D.τ → List (Nat × UInt8) → Prop} (S : Sound D Rel) :
    ∀ (text : List UInt8) (s : D.τ) (keys : List (Nat × UInt8)) (node parent fc : Nat) (c : UInt8) (es : List Emit), Rel s keys →
      keys.length + text.length ≤ undefId → lz78Loop (hashTrieOn D) 0 text (.ok s) node parent fc c = .ok es →
      ∃ t, tabRun D hkey hnext text s node = .ok t
  | [], s, keys, node, parent, fc, c, es, _, _, _ => ⟨s, rfl⟩
  | x :: text, s, keys, node, parent, fc, c, es, R, hlen, h => by
    have h := (lz78Loop_cons (hashTrieOn D) 0 x text (.ok s) node parent fc c).symm.trans h
    have hf : (hashTrieOn D).findOrInsert (.ok s) node x = (D.ins s (node, x)).bind fun (s, r) => .ok (.ok s, r) := rfl
    rw [hf] at h
    simp only [List.length_cons] at hlen
    cases hi : D.ins s (node, x) with
    | error e => rw [hi] at h; cases h
    | ok q =>
      obtain ⟨s', id, b⟩ := q
      obtain ⟨keys', e1, e2⟩ := S.ins s keys (node, x) s' id b R (by omega) hi
      have hl := tableInsert_length keys (node, x)
      have hne := tableInsert_ne keys (node, x)
      rw [e1] at hl hne
      dsimp only at hl hne
      rw [hi] at h
      show ∃ t, (D.ins s (hkey node x)).bind (fun q => tabRun D hkey hnext text q.1 (hnext node x q.2.1 q.2.2)) = .ok t
      have hi' : D.ins s (hkey node x) = .ok (s', id, b) := hi
      rw [hi']
      show ∃ t, tabRun D hkey hnext text s' (hnext node x id b) = .ok t
      cases b with
      | true =>
        have hz : ¬ (hashTrieOn D).size (.ok s') = 0 := by
          show ¬ D.size s' = 0
          rw [S.size _ _ e2]; exact hne
        have h : (match (if (hashTrieOn D).size (.ok s') = 0 then lz78Loop (hashTrieOn D) 0 text ((hashTrieOn D).addRoot (.ok s') 0) 0 0 0 x
            else lz78Loop (hashTrieOn D) 0 text (.ok s') 0 0 (fc + 1) x) with
          | .error e => .error e
          | .ok es => .ok (.tok (.range 0 fc) node :: .tok .literal x.toNat :: es)) = Except.ok es := h
        rw [if_neg hz] at h
        cases hr : lz78Loop (hashTrieOn D) 0 text (.ok s') 0 0 (fc + 1) x with
        | error e => rw [hr] at h; cases h
        | ok es' => exact lz78Loop_tabRun S text s' keys' 0 0 (fc + 1) x es' e2 (by omega) hr
      | false => exact lz78Loop_tabRun S text s' keys' id node fc x es e2 (by omega) h

theorem lz78Loop_tabRun_roll {H : Roller} {D : IdTab H.κ} {Rel : D.τ → List H.κ → Prop} (S : Sound D Rel) :
    ∀ (text : List UInt8) (s : D.τ) (keys : List H.κ) (st : H.S) (node parent fc : Nat) (c : UInt8) (es : List Emit), Rel s keys →
      keys.length + text.length ≤ undefId → lz78Loop (rollingTrieOn H D) 0 text (.ok (st, s)) node parent fc c = .ok es →
      ∃ t, tabRun D (rkey H) (rnext H) text s st = .ok t
  | [], s, keys, st, node, parent, fc, c, es, _, _, _ => ⟨s, rfl⟩
  | x :: text, s, keys, st, node, parent, fc, c, es, R, hlen, h => by
    have h := (lz78Loop_cons (rollingTrieOn H D) 0 x text (.ok (st, s)) node parent fc c).symm.trans h
    have hf : (rollingTrieOn H D).findOrInsert (.ok (st, s)) node x = (D.ins s (rkey H st x)).bind fun (t, id, b) =>
      .ok (.ok (if b then H.init else H.step st x, t), id, b) := rfl
    rw [hf] at h
    simp only [List.length_cons] at hlen
    cases hi : D.ins s (rkey H st x) with
    | error e => rw [hi] at h; cases h
    | ok q =>
      obtain ⟨s', id, b⟩ := q
      obtain ⟨keys', e1, e2⟩ := S.ins s keys (rkey H st x) s' id b R (by omega) hi
      have hl := tableInsert_length keys (rkey H st x)
      have hne := tableInsert_ne keys (rkey H st x)
      rw [e1] at hl hne
      dsimp only at hl hne
      rw [hi] at h
      show ∃ t, (D.ins s (rkey H st x)).bind (fun q => tabRun D (rkey H) (rnext H) text q.1 (rnext H st x q.2.1 q.2.2)) = .ok t
      rw [hi]
      show ∃ t, tabRun D (rkey H) (rnext H) text s' (rnext H st x id b) = .ok t
      cases b with
      | true =>
        have hz : ¬ (rollingTrieOn H D).size (.ok (H.step H.init 0, s')) = 0 := by
          show ¬ D.size s' = 0
          rw [S.size _ _ e2]; exact hne
        have h : (match (if (rollingTrieOn H D).size (.ok (H.step H.init 0, s')) = 0 then
              lz78Loop (rollingTrieOn H D) 0 text ((rollingTrieOn H D).addRoot (.ok (H.step H.init 0, s')) 0) 0 0 0 x
            else lz78Loop (rollingTrieOn H D) 0 text (.ok (H.step H.init 0, s')) 0 0 (fc + 1) x) with
          | .error e => .error e
          | .ok es => .ok (.tok (.range 0 fc) node :: .tok .literal x.toNat :: es)) = Except.ok es := h
        rw [if_neg hz] at h
        cases hr : lz78Loop (rollingTrieOn H D) 0 text (.ok (H.step H.init 0, s')) 0 0 (fc + 1) x with
        | error e => rw [hr] at h; cases h
        | ok es' => exact lz78Loop_tabRun_roll S text s' keys' _ 0 0 (fc + 1) x es' e2 (by omega) hr
      | false => exact lz78Loop_tabRun_roll S text s' keys' _ id node fc x es e2 (by omega) h

/-! ## The first steps -/

section

variable {κ : Type} [DecidableEq κ]

/-- Insertions into a first table of eight cells with load factor 30 do not make it grow while it has at most two entries. -/
theorem insert_len8 {C : Cfg κ} {d n r v w : Nat} {T T' : Table κ Pol} {k : κ} {b : Bool} (hl : T.cells.length = 8)
    (he : T.entries + 1 ≤ 2) (hp : T.pol = ⟨30, n, r⟩) (h : insert C growth undefId d T k v = .ok (T', w, b)) :
    T'.cells.length = 8 ∧ T'.pol = ⟨30, n, r⟩ := by
  cases d with
  | zero => exact absurd h (by simp [HM.insert])
  | succ d =>
    rw [HM.insert] at h
    split at h
    · exact absurd h (by simp)
    rename_i p _
    split at h
    · exact absurd h (by simp)
    · simp only [Except.ok.injEq, Prod.mk.injEq] at h
      obtain ⟨rfl, -, -⟩ := h
      exact ⟨hl, hp⟩
    · have hlen : (store undefId T.cells p k v).length = 8 := by rw [store, List.length_set, hl]
      have hg : growth ⟨30, n, r⟩ 8 (T.entries + 1) = none := by
        unfold growth
        rw [if_neg]
        show ¬ 8 * 30 < (T.entries + 1) * 100
        omega
      dsimp only at h
      rw [hlen, hp, hg] at h
      simp only [Except.ok.injEq, Prod.mk.injEq] at h
      obtain ⟨rfl, -, -⟩ := h
      exact ⟨hlen, rfl⟩

theorem moveAll_len {A : Conf κ} (S : Stuck A) {d n r : Nat} :
    ∀ (cs : List (Option (κ × Nat))) (T T' : Table κ Pol), Ok A.cfg undefId T → T.cells.length = 9 → T.pol = ⟨95, n, r⟩ →
      T.entries + used cs ≤ 8 → (cs.filterMap id).Pairwise (fun a b => a.1 ≠ b.1) →
      (∀ a ∈ cs.filterMap id, a.2 ≠ undefId ∧ ∀ u, ¬ Has T.cells a.1 u) → moveAll (insert A.cfg A.grow undefId d) cs T = .ok T' →
      T'.cells.length = 9 ∧ T'.pol = ⟨95, n, r⟩ := by
  intro cs
  induction cs with
  | nil => intro T T' _ hl hp _ _ _ h; cases h; exact ⟨hl, hp⟩
  | cons c cs ihc =>
    intro T T' O hl hp h8 hd hn h
    cases c with
    | none => exact ihc T T' O hl hp (by simpa [used] using h8) (by simpa using hd) (by simpa using hn) h
    | some a =>
      obtain ⟨k, v⟩ := a
      rw [moveAll] at h
      have hk := hn (k, v) (by simp)
      cases e : insert A.cfg A.grow undefId d T k v with
      | error f => rw [e] at h; cases h
      | ok q =>
        obtain ⟨T1, w, b⟩ := q
        rw [e] at h
        have hd' : (∀ a ∈ cs.filterMap id, k ≠ a.1) ∧ (cs.filterMap id).Pairwise (fun a b => a.1 ≠ b.1) := by
          simpa using hd
        have hu : T.entries + (used cs + 1) ≤ 8 := by simpa [used] using h8
        obtain ⟨o1, -, o3⟩ := insert_spec A.cfg A.grow undefId d T k v T1 w b O hk.1 e
        obtain ⟨-, -, o5, o4⟩ := o3 hk.2
        obtain ⟨l1, l2⟩ := insert_len S hl (by omega) hp e
        refine ihc T1 T' o1 l1 l2 (by omega) hd'.2 ?_ h
        intro a ha
        have h1 := hn a (by simp at ha ⊢; exact Or.inr ha)
        refine ⟨h1.1, fun u hu => ?_⟩
        rcases (o4 _ _).1 hu with h2 | ⟨h2, -⟩
        · exact h1.2 u h2
        · exact hd'.1 a ha h2.symm

theorem incorporate_len {A1 A2 : Conf κ} (S : Stuck A2) {depth n r : Nat} {t1 t2 t2' : Table κ Pol} {keys : List κ}
    (R : Rep A1.cfg undefId t1 (idMap keys)) (hk : keys.length ≤ 8) (hne : keys.length ≠ 0) (hp : t2.pol = ⟨95, n, r⟩)
    (h : incorporate A2 depth t1 t2 9 = .ok t2') : t2'.cells.length = 9 ∧ t2'.pol = ⟨95, n, r⟩ := by
  have hc := rep_cnt R
  unfold incorporate reserve at h
  dsimp only at h
  rw [if_pos (by omega), S.min] at h
  refine moveAll_len S t1.cells { cells := freshCells κ 9, entries := 0, pol := t2.pol } t2'
    ⟨wf_fresh A2.cfg _, (used_fresh _).symm, fun k v hk => absurd hk (has_fresh _ k v)⟩ (by simp [freshCells]) hp ?_
    (distinct_of_wf R.ok.wf) ?_ h
  · show 0 + _ ≤ 8
    have := R.ok.cnt
    omega
  · intro a ha
    refine ⟨?_, fun u => has_fresh _ _ u⟩
    rw [List.mem_filterMap] at ha
    obtain ⟨c, hc, e⟩ := ha
    have e : c = some a := e
    rw [e] at hc
    exact R.ok.vals _ _ hc

/-- The growth decision of the second table after the first factor of a text of nine or ten characters. -/
theorem changeOver_nine {T : Table κ Pol} {n : Nat} (hn : n = 9 ∨ n = 10) (hl : T.cells.length = 8) (he : T.entries = 2)
    (hp : T.pol = ⟨30, n, n - 1⟩) : changeOver T = some 9 := by
  unfold changeOver
  rw [hl, he, hp]
  rcases hn with rfl | rfl <;> decide +kernel

/-- The first call, on a first table with the root only. -/
theorem tabRun_hang {S : Type} {A1 A2 : Conf κ} (hg : A1.grow = growth) (X : Stuck A2) {depth n res : Nat} (hn : n = 9 ∨ n = 10)
    (key : S → UInt8 → κ) (next : S → UInt8 → Nat → Bool → S) (c : UInt8) (cs : List UInt8) (s : Two κ) (k0 : κ) (st : S)
    (hlen : (c :: cs).length = n)
    (h2 : s.t2 = newTable A2.cfg 95 n 0) (R : Rep A1.cfg undefId s.t1 (idMap [k0])) (hl : s.t1.cells.length = 8) (hp : s.t1.pol = ⟨30, n, n⟩)
    (hk : key st c ≠ k0) (h9 : (keysRun key next (c :: cs) [k0] st).length = 9)
    (h8 : (keysRun key next (c :: cs).dropLast [k0] st).length = 8) :
    ∀ x, tabRun (plus A1 A2 depth 30 n res) key next (c :: cs) s st ≠ .ok x := by
  intro x h
  have hcs : cs.length = n - 1 := by simp at hlen; omega
  have hcne : cs ≠ [] := by intro h; rw [h] at hcs; simp at hcs; omega
  change (plusIns A1 A2 depth s (key st c)).bind (fun q => tabRun (plus A1 A2 depth 30 n res) key next cs q.1 (next st c q.2.1 q.2.2)) = .ok x at h
  obtain ⟨⟨s', id, b⟩, i1, i2⟩ := bind_eq_ok'.mp h
  have hs : s.size = 1 := by
    unfold Two.size
    rw [h2, if_pos (by rfl)]
    exact rep_cnt R
  have htick : (tick s.t1).pol = ⟨30, n, n - 1⟩ := by
    show ({ s.t1.pol with rem := s.t1.pol.rem - 1 } : Pol) = _
    rw [hp]
  have htick2 : (tick s.t2).pol = ⟨95, n, cs.length⟩ := by
    rw [h2, hcs]; rfl
  have ht : tableInsert [k0] (key st c) = ([k0, key st c], 1, true) := by
    unfold tableInsert
    have : List.findIdx? (fun x => x == key st c) [k0] = none := by
      simp [Ne.symm hk]
    rw [this]; rfl
  unfold plusIns at i1
  dsimp only at i1
  rw [if_neg (by rw [h2]; exact fun h => h rfl)] at i1
  obtain ⟨⟨T, w, b2⟩, j1, j2⟩ := bind_eq_ok'.mp i1
  obtain ⟨keys', e1, e2⟩ := rep_ins (rep_pol R _) (by show 1 < undefId; decide) hs j1
  rw [ht] at e1
  simp only [Prod.mk.injEq] at e1
  obtain ⟨rfl, rfl, rfl⟩ := e1
  rw [hg] at j1
  obtain ⟨l1, l2⟩ := insert_len8 (T := tick s.t1) hl (by show s.t1.entries + 1 ≤ 2; rw [rep_cnt R]; simp) htick j1
  dsimp only at j2
  rw [if_pos rfl, changeOver_nine hn l1 (rep_cnt e2) l2] at j2
  obtain ⟨t2', m1, m2⟩ := bind_eq_ok'.mp j2
  simp only [Except.ok.injEq, Prod.mk.injEq] at m2
  obtain ⟨rfl, rfl, rfl⟩ := m2
  obtain ⟨q1, q2⟩ := incorporate_len X e2 (by simp) (by simp) htick2 m1
  obtain ⟨r1, r2⟩ := incorporate_rep e2 (by simp) m1
  rw [keysRun, ht] at h9
  rw [List.dropLast_cons_of_ne_nil hcne, keysRun, ht] at h8
  dsimp only at h8 h9 i2
  rw [hs] at i2
  exact tabRun_stuck X (by omega) key next cs _ _ _ r2 r1 q1 q2 hcne h9 h8 x i2

end

end Tdc.HT
