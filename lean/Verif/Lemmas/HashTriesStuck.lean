import Verif.Lemmas.HashTriesTab

/-!
# The second table of the tries with two tables can be too small for ever

A table of nine cells with load factor 95 is filled by eight entries; the ninth asks for nine cells, and so on.
-/

namespace Tdc.HT

open HM

variable {κ : Type} [DecidableEq κ]

/-- What makes a configuration get stuck at nine cells. -/
structure Stuck (A : Conf κ) : Prop where
  low : ∀ n r e, e ≤ 8 → A.grow ⟨95, n, r⟩ 9 e = none
  nine : ∀ n, 0 < n → A.grow ⟨95, n, 0⟩ 9 9 = some (9, ⟨95, n, 0⟩)
  min : A.cfg.minSize 9 = 9

theorem stuck_noob (hash : κ → Nat) : Stuck (confNoob hash) where
  low n r e he := by
    show growth _ _ _ = _
    unfold growth
    rw [if_neg]
    show ¬ 9 * 95 < e * 100
    omega
  nine n hn := by
    have h1 : (confNoob hash).grow = growth := rfl
    rw [h1]
    unfold growth
    rw [if_pos (by show 9 * 95 < 9 * 100; decide)]
    have : expectedRem 9 n 0 = 0 := by unfold expectedRem; rw [if_pos (by omega)]; simp
    simp [this]
  min := rfl

theorem stuck_direct (hash : κ → Nat) : Stuck (confDirect hash) where
  low n r e he := by
    show growthDirect _ _ _ = _
    unfold growthDirect
    rw [if_neg]
    show ¬ 9 * 95 < e * 100
    omega
  nine n hn := by
    have h1 : (confDirect hash).grow = growthDirect := rfl
    rw [h1]
    unfold growthDirect
    rw [if_pos (by show 9 * 95 < 9 * 100; decide)]
    have : expectedRem 9 n 0 = 0 := by unfold expectedRem; rw [if_pos (by omega)]; simp
    simp [this]
  min := rfl

/-- While at most eight entries are in the table, its size does not change. -/
theorem insert_len {A : Conf κ} (S : Stuck A) {d n r v w : Nat} {T T' : Table κ Pol} {k : κ} {b : Bool} (hl : T.cells.length = 9)
    (he : T.entries + 1 ≤ 8) (hp : T.pol = ⟨95, n, r⟩) (h : insert A.cfg A.grow undefId d T k v = .ok (T', w, b)) :
    T'.cells.length = 9 ∧ T'.pol = ⟨95, n, r⟩ := by
  cases d with
  | zero => exact absurd h (by simp [HM.insert])
  | succ d =>
    rw [HM.insert] at h
    split at h
    · exact absurd h (by simp)
    rename_i p _
    split at h
    · exact absurd h (by simp)
    · simp only [Except.ok.injEq, Prod.mk.injEq] at h
      obtain ⟨rfl, -, -⟩ := h
      exact ⟨hl, hp⟩
    · have hlen : (store undefId T.cells p k v).length = 9 := by rw [store, List.length_set, hl]
      dsimp only at h
      rw [hlen, hp, S.low n r (T.entries + 1) he] at h
      simp only [Except.ok.injEq, Prod.mk.injEq] at h
      obtain ⟨rfl, -, -⟩ := h
      exact ⟨hlen, rfl⟩

theorem insert_false {A : Conf κ} {d v w : Nat} {T T' : Table κ Pol} {k : κ}
    (h : insert A.cfg A.grow undefId d T k v = .ok (T', w, false)) : T' = T := by
  cases d with
  | zero => exact absurd h (by simp [HM.insert])
  | succ d =>
    rw [HM.insert] at h
    split at h
    · exact absurd h (by simp)
    rename_i p _
    split at h
    · exact absurd h (by simp)
    · simp only [Except.ok.injEq, Prod.mk.injEq] at h
      exact h.1.symm
    · dsimp only at h
      split at h
      · simp at h
      · split at h
        · simp at h
        · split at h <;> simp at h

theorem moveAll_stuck {A : Conf κ} (S : Stuck A) {d n r : Nat}
    (ih : ∀ (T : Table κ Pol) (k : κ) (v : Nat), Ok A.cfg undefId T → T.cells.length = 9 → T.entries = 8 → T.pol = ⟨95, n, r⟩ →
      (∀ u, ¬ Has T.cells k u) → v ≠ undefId → ∀ x, insert A.cfg A.grow undefId d T k v ≠ .ok x) :
    ∀ (cs : List (Option (κ × Nat))) (T : Table κ Pol), Ok A.cfg undefId T → T.cells.length = 9 → T.pol = ⟨95, n, r⟩ → T.entries ≤ 8 →
      T.entries + used cs = 9 → (cs.filterMap id).Pairwise (fun a b => a.1 ≠ b.1) →
      (∀ a ∈ cs.filterMap id, a.2 ≠ undefId ∧ ∀ u, ¬ Has T.cells a.1 u) → ∀ T', moveAll (insert A.cfg A.grow undefId d) cs T ≠ .ok T' := by
  intro cs
  induction cs with
  | nil => intro T _ _ _ h8 h9; simp [used] at h9; omega
  | cons c cs ihc =>
    intro T O hl hp h8 h9 hd hn T' h
    cases c with
    | none => exact ihc T O hl hp h8 (by simpa [used] using h9) (by simpa using hd) (by simpa using hn) T' h
    | some a =>
      obtain ⟨k, v⟩ := a
      rw [moveAll] at h
      have hk := hn (k, v) (by simp)
      cases e : insert A.cfg A.grow undefId d T k v with
      | error f => rw [e] at h; cases h
      | ok q =>
        obtain ⟨T1, w, b⟩ := q
        by_cases h8' : T.entries = 8
        · exact ih T k v O hl h8' hp hk.2 hk.1 _ e
        · rw [e] at h
          have hd' : (∀ a ∈ cs.filterMap id, k ≠ a.1) ∧ (cs.filterMap id).Pairwise (fun a b => a.1 ≠ b.1) := by
            simpa using hd
          obtain ⟨o1, -, o3⟩ := insert_spec A.cfg A.grow undefId d T k v T1 w b O hk.1 e
          obtain ⟨-, -, o5, o4⟩ := o3 hk.2
          obtain ⟨l1, l2⟩ := insert_len S hl (by omega) hp e
          refine ihc T1 o1 l1 l2 (by omega) ?_ hd'.2 ?_ T' h
          · simp [used] at h9 ⊢; omega
          · intro a ha
            have h1 := hn a (by simp at ha ⊢; exact Or.inr ha)
            refine ⟨h1.1, fun u hu => ?_⟩
            rcases (o4 _ _).1 hu with h2 | ⟨h2, -⟩
            · exact h1.2 u h2
            · exact hd'.1 a ha h2.symm

/-- The ninth entry at the end of the text. -/
theorem insert_stuck {A : Conf κ} (S : Stuck A) {n : Nat} (hn : 0 < n) : ∀ (d : Nat) (T : Table κ Pol) (k : κ) (v : Nat), Ok A.cfg undefId T →
    T.cells.length = 9 → T.entries = 8 → T.pol = ⟨95, n, 0⟩ → (∀ u, ¬ Has T.cells k u) → v ≠ undefId →
    ∀ x, insert A.cfg A.grow undefId d T k v ≠ .ok x := by
  intro d
  induction d with
  | zero => intro T k v _ _ _ _ _ _ x h; exact absurd h (by simp [HM.insert])
  | succ d ih =>
    intro T k v O hl h8 hp hk hv x h
    rw [HM.insert] at h
    split at h
    · exact absurd h (by simp)
    rename_i p hpr
    split at h
    · exact absurd h (by simp)
    · rename_i k' w hc
      obtain ⟨j, -, -, -, hst, -⟩ := probeFrom_some _ _ _ hpr
      have := stops_true hst hc
      subst this
      exact hk w (List.mem_of_getElem? hc)
    · rename_i hc
      obtain ⟨w1, w2⟩ := store_wf O.wf hpr hc hv
      have hu := used_store (k := k) hc hv
      have hlen : (store undefId T.cells p k v).length = 9 := by rw [store, List.length_set, hl]
      dsimp only at h
      rw [hlen, hp, h8, S.nine n hn] at h
      dsimp only at h
      unfold reserve at h
      rw [if_pos (by show 8 + 1 > 0; decide), S.min] at h
      have hcnt := O.cnt
      have := moveAll_stuck S ih (store undefId T.cells p k v) { cells := freshCells κ 9, entries := 0, pol := ⟨95, n, 0⟩ }
        ⟨wf_fresh A.cfg _, (used_fresh _).symm, fun k v hk => absurd hk (has_fresh _ k v)⟩ (by simp [freshCells]) rfl (Nat.zero_le _)
        (by show 0 + _ = 9; omega) (distinct_of_wf w1) (fun a ha => by
          refine ⟨?_, fun u => has_fresh _ _ u⟩
          rw [List.mem_filterMap] at ha
          obtain ⟨c, hc, e⟩ := ha
          have e : c = some a := e
          rw [e] at hc
          rcases (w2 a.1 a.2).mp hc with h1 | ⟨-, h2⟩
          · exact O.vals _ _ h1
          · rw [h2]; exact hv)
      cases hm : moveAll (insert A.cfg A.grow undefId d) (store undefId T.cells p k v)
          { cells := freshCells κ 9, entries := 0, pol := ⟨95, n, 0⟩ } with
      | error f =>
        have hm' := hm
        simp only [hm'] at h
        exact absurd h (by simp)
      | ok T2 => exact this T2 hm

/-! ## Runs of insertions -/

/-- The calls of `ins` made by a compressor: `key` gives the key of a call from a state and the character, `next` the next state from the
answer. -/
def tabRun {κ S : Type} (D : IdTab κ) (key : S → UInt8 → κ) (next : S → UInt8 → Nat → Bool → S) : List UInt8 → D.τ → S → Res D.τ
  | [], t, _ => .ok t
  | c :: cs, t, st => (D.ins t (key st c)).bind fun (t, id, b) => tabRun D key next cs t (next st c id b)

/-- The same on a list of keys. -/
def keysRun {κ S : Type} [BEq κ] (key : S → UInt8 → κ) (next : S → UInt8 → Nat → Bool → S) : List UInt8 → List κ → S → List κ
  | [], keys, _ => keys
  | c :: cs, keys, st =>
    match tableInsert keys (key st c) with
    | (keys', id, b) => keysRun key next cs keys' (next st c id b)

theorem keysRun_length {S : Type} [BEq κ] (key : S → UInt8 → κ) (next : S → UInt8 → Nat → Bool → S) : ∀ (cs : List UInt8) (keys : List κ) (st : S),
    keys.length ≤ (keysRun key next cs keys st).length
  | [], keys, st => Nat.le_refl _
  | c :: cs, keys, st => by
    rw [keysRun]
    have h := tableInsert_length keys (key st c)
    cases hq : tableInsert keys (key st c) with
    | mk keys' q =>
      obtain ⟨id, b⟩ := q
      rw [hq] at h
      exact Nat.le_trans h.2.2 (keysRun_length key next cs keys' _)

theorem tableInsert_new {keys keys' : List κ} {k : κ} {id : Nat} {b : Bool} (h : tableInsert keys k = (keys', id, b)) :
    (keys'.length = keys.length + 1 → ∀ {C : Cfg κ} {T : Table κ Pol}, Rep C undefId T (idMap keys) → ∀ u, ¬ Has T.cells k u) ∧
    (keys.length < keys'.length → keys'.length = keys.length + 1) := by
  unfold tableInsert at h
  split at h
  · simp only [Prod.mk.injEq] at h
    obtain ⟨rfl, -, -⟩ := h
    exact ⟨fun h => by omega, fun h => by omega⟩
  · rename_i hf
    simp only [Prod.mk.injEq] at h
    obtain ⟨rfl, -, -⟩ := h
    refine ⟨fun _ C T R u hu => ?_, fun _ => by simp⟩
    have := (R.has k u).mp hu
    rw [idMap_lookup, hf] at this
    cases this

/-- The second table has nine cells, and its ninth key comes with the last character. -/
theorem tabRun_stuck {S : Type} {A1 A2 : Conf κ} (X : Stuck A2) {depth lf n res : Nat} (hn : 0 < n) (key : S → UInt8 → κ)
    (next : S → UInt8 → Nat → Bool → S) : ∀ (cs : List UInt8) (s : Two κ) (keys : List κ) (st : S),
    s.t2.entries ≠ 0 → Rep A2.cfg undefId s.t2 (idMap keys) → s.t2.cells.length = 9 → s.t2.pol = ⟨95, n, cs.length⟩ → cs ≠ [] →
    (keysRun key next cs keys st).length = 9 → (keysRun key next cs.dropLast keys st).length = 8 →
    ∀ x, tabRun (plus A1 A2 depth lf n res) key next cs s st ≠ .ok x
  | [], s, keys, st, _, _, _, _, h, _, _ => absurd rfl h
  | c :: cs, s, keys, st, h0, R, hl, hp, _, h9, h8 => by
    intro x h
    change (plusIns A1 A2 depth s (key st c)).bind (fun q => tabRun (plus A1 A2 depth lf n res) key next cs q.1 (next st c q.2.1 q.2.2)) = .ok x at h
    obtain ⟨⟨s', id, b⟩, h1, h2⟩ := bind_eq_ok'.mp h
    have hins : plusIns A1 A2 depth s (key st c) = .ok (s', id, b) := h1
    have hs : s.size = keys.length := plus_size (A1 := A1) (A2 := A2) (Or.inr ⟨h0, R⟩)
    have hk8 : keys.length ≤ 8 := by
      have := keysRun_length key next (c :: cs).dropLast keys st
      omega
    change plusIns A1 A2 depth s (key st c) = .ok (s', id, b) at h1
    unfold plusIns at h1
    dsimp only at h1
    rw [if_pos (by exact h0)] at h1
    obtain ⟨⟨T, w, b2⟩, i1, i2⟩ := bind_eq_ok'.mp h1
    simp only [Except.ok.injEq, Prod.mk.injEq] at i2
    obtain ⟨rfl, rfl, rfl⟩ := i2
    have hpt : (tick s.t2).pol = ⟨95, n, cs.length⟩ := by
      show ({ s.t2.pol with rem := s.t2.pol.rem - 1 } : Pol) = _
      rw [hp]; simp
    obtain ⟨keys', e1, e2⟩ := rep_ins (rep_pol R _) (by unfold undefId; omega) hs i1
    have hni := tableInsert_new e1
    have hle := tableInsert_length keys (key st c)
    rw [e1] at hle
    have hne := tableInsert_ne keys (key st c)
    rw [e1] at hne
    rw [keysRun, e1] at h9
    cases cs with
    | nil =>
      simp only [List.dropLast_singleton, keysRun] at h8 h9
      exact insert_stuck X hn depth (tick s.t2) (key st c) s.size (rep_pol R _).ok hl (by show s.t2.entries = 8; rw [rep_cnt R, h8])
        hpt (hni.1 (by omega) (rep_pol R _)) (by rw [hs, h8]; decide) _ i1
    | cons c' cs =>
      rw [List.dropLast_cons_of_ne_nil (by simp), keysRun, e1] at h8
      dsimp only at h8 h9
      have hk8' := keysRun_length key next (c' :: cs).dropLast keys' (next st c w b2)
      have hlen : T.cells.length = 9 ∧ T.pol = ⟨95, n, (c' :: cs).length⟩ := by
        by_cases h7 : keys.length + 1 ≤ 8
        · exact insert_len (T := tick s.t2) X hl (by show s.t2.entries + 1 ≤ 8; rw [rep_cnt R]; exact h7) hpt i1
        · have hb : b2 = false := by
            cases b2 with
            | false => rfl
            | true =>
              have := hni.2
              unfold tableInsert at e1
              split at e1
              · simp at e1
              · simp only [Prod.mk.injEq] at e1
                have : keys'.length = keys.length + 1 := by rw [← e1.1]; simp
                omega
          subst hb
          rw [insert_false i1]
          exact ⟨hl, hpt⟩
      have hid : (if b2 then s.size else w) = w := by
        cases b2 with
        | false => rfl
        | true => rw [if_pos rfl, tableInsert_snd e1, hs]
      rw [hid] at h2
      exact tabRun_stuck X hn key next (c' :: cs) ⟨tick s.t1, T⟩ keys' _ (by show T.entries ≠ 0; rw [rep_cnt e2]; exact hne) e2 hlen.1
        hlen.2 (by simp) h9 h8 x h2

end Tdc.HT
