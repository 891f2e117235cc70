import Verif.Lemmas.HashTries

/-!
# The tables of the hash tries answer like lists of keys
-/

namespace Tdc.HT

open HM

variable {κ : Type} [DecidableEq κ]

theorem rep_pol {C : Cfg κ} {T : Table κ Pol} {m : List (κ × Nat)} (R : Rep C undefId T m) (p : Pol) : Rep C undefId { T with pol := p } m :=
  ⟨⟨R.ok.wf, R.ok.cnt, R.ok.vals⟩, R.has, R.cnt⟩

theorem rep_cnt {C : Cfg κ} {T : Table κ Pol} {keys : List κ} (R : Rep C undefId T (idMap keys)) : T.entries = keys.length := by
  rw [R.cnt]; simp [idMap]

/-- One insertion with the number of entries as value. -/
theorem rep_ins {A : Conf κ} {depth : Nat} {T T' : Table κ Pol} {keys : List κ} (R : Rep A.cfg undefId T (idMap keys))
    (hn : keys.length < undefId) {k : κ} {v w : Nat} {b : Bool} (hv : v = keys.length)
    (h : insert A.cfg A.grow undefId depth T k v = .ok (T', w, b)) :
    ∃ keys', tableInsert keys k = (keys', w, b) ∧ Rep A.cfg undefId T' (idMap keys') := by
  have hq := rep_insert (insert_spec A.cfg A.grow undefId depth) R (by omega) h
  rw [idMap_lookup] at hq
  unfold tableInsert
  cases hf : keys.findIdx? (· == k) with
  | some i =>
    rw [hf] at hq
    obtain ⟨a1, a2, a3⟩ := hq
    exact ⟨keys, by rw [a1, a2], a3⟩
  | none =>
    rw [hf] at hq
    obtain ⟨a1, a2, a3⟩ := hq
    rw [hv, ← idMap_append] at a3
    exact ⟨keys ++ [k], by rw [a1, a2, hv], a3⟩

theorem rep_new (C : Cfg κ) (lf n res : Nat) : Rep C undefId (newTable C lf n res) (idMap ([] : List κ)) :=
  ⟨⟨wf_fresh C _, (used_fresh _).symm, fun k v hk => absurd hk (has_fresh _ k v)⟩,
    fun k v => ⟨fun h => absurd h (has_fresh _ k v), fun h => by cases h⟩, rfl⟩

theorem sound_single (A : Conf κ) (depth lf n res : Nat) :
    Sound (single A depth lf n res) (fun T keys => Rep A.cfg undefId T (idMap keys)) where
  new := rep_new A.cfg lf n res
  root T keys k T' R hn h := by
    change (insert A.cfg A.grow undefId depth T k T.entries).bind (fun r => .ok r.1) = .ok T' at h
    obtain ⟨⟨T1, w, b1⟩, h1, h2⟩ := bind_eq_ok'.mp h
    injection h2 with h2
    subst h2
    obtain ⟨keys', e1, e2⟩ := rep_ins R hn (rep_cnt R) h1
    rw [e1]
    exact e2
  ins T keys k T' id b1 R hn h := by
    change insert A.cfg A.grow undefId depth (tick T) k T.entries = _ at h
    obtain ⟨keys', e1, e2⟩ := rep_ins (rep_pol R _) hn (rep_cnt R) h
    exact ⟨keys', by rw [e1], e2⟩
  size T keys R := rep_cnt R

/-- The table that is in use. -/
def PlusRel (A1 A2 : Conf κ) (s : Two κ) (keys : List κ) : Prop :=
  (s.t2.entries = 0 ∧ Rep A1.cfg undefId s.t1 (idMap keys)) ∨ (s.t2.entries ≠ 0 ∧ Rep A2.cfg undefId s.t2 (idMap keys))

theorem incorporate_rep {A1 A2 : Conf κ} {depth : Nat} {t1 t2 t2' : Table κ Pol} {newsize : Nat} {keys : List κ}
    (R : Rep A1.cfg undefId t1 (idMap keys)) (hne : keys.length ≠ 0) (h : incorporate A2 depth t1 t2 newsize = .ok t2') :
    Rep A2.cfg undefId t2' (idMap keys) ∧ t2'.entries ≠ 0 := by
  have hc := rep_cnt R
  unfold incorporate reserve at h
  rw [if_pos (by show t1.entries > 0; omega)] at h
  obtain ⟨o1, o2, o3⟩ := moveAll_spec (insert_spec A2.cfg A2.grow undefId depth) t1.cells _ t2'
    ⟨wf_fresh A2.cfg _, (used_fresh _).symm, fun k v hk => absurd hk (has_fresh _ k v)⟩ (distinct_of_wf R.ok.wf) (fun a ha => by
      refine ⟨?_, fun u => has_fresh _ _ u⟩
      refine R.ok.vals a.1 a.2 ?_
      rw [List.mem_filterMap] at ha
      obtain ⟨c, hc, e⟩ := ha
      have e : c = some a := e
      rw [e] at hc; exact hc) h
  have hcnt : t2'.entries = t1.entries := by
    rw [o2, R.ok.cnt]; exact Nat.zero_add _
  refine ⟨⟨o1, fun k v => ?_, by rw [hcnt, R.cnt]⟩, by omega⟩
  rw [o3, ← R.has]
  exact ⟨fun h => h.resolve_left (has_fresh _ k v), Or.inr⟩

theorem plus_size {A1 A2 : Conf κ} {s : Two κ} {keys : List κ} (R : PlusRel A1 A2 s keys) : s.size = keys.length := by
  unfold Two.size
  rcases R with ⟨h, R⟩ | ⟨h, R⟩
  · rw [if_pos h]; exact rep_cnt R
  · rw [if_neg h]; exact rep_cnt R

theorem tableInsert_snd {keys keys' : List κ} {k : κ} {w : Nat} (h : tableInsert keys k = (keys', w, true)) : w = keys.length := by
  unfold tableInsert at h
  split at h
  · simp at h
  · simp only [Prod.mk.injEq] at h
    exact h.2.1.symm

theorem sound_plus (A1 A2 : Conf κ) (depth lf n res : Nat) :
    Sound (plus A1 A2 depth lf n res) (PlusRel A1 A2) where
  new := Or.inl ⟨rfl, rep_new A1.cfg lf n res⟩
  root s keys k s' R hn h := by
    change (if s.t2.entries ≠ 0 then .error .ub
      else (insert A1.cfg A1.grow undefId depth s.t1 k s.size).bind fun r => .ok ⟨r.1, s.t2⟩) = (.ok s' : Res (Two κ)) at h
    split at h
    · exact absurd h (by simp)
    rename_i h0
    have h0 : s.t2.entries = 0 := by omega
    obtain ⟨⟨T1, w, b1⟩, h1, h2⟩ := bind_eq_ok'.mp h
    injection h2 with h2
    subst h2
    have hs := plus_size R
    rcases R with ⟨-, R⟩ | ⟨h, R⟩
    · obtain ⟨keys', e1, e2⟩ := rep_ins R hn hs h1
      rw [e1]
      exact Or.inl ⟨h0, e2⟩
    · exact absurd h0 h
  ins s keys k s' id b1 R hn h := by
    change plusIns A1 A2 depth s k = .ok (s', id, b1) at h
    have hs := plus_size R
    unfold plusIns at h
    dsimp only at h
    split at h
    · rename_i h0
      obtain ⟨⟨T, w, b2⟩, h1, h2⟩ := bind_eq_ok'.mp h
      simp only [Except.ok.injEq, Prod.mk.injEq] at h2
      obtain ⟨rfl, rfl, rfl⟩ := h2
      rcases R with ⟨h, R⟩ | ⟨-, R⟩
      · exact absurd h h0
      · obtain ⟨keys', e1, e2⟩ := rep_ins (rep_pol R _) hn hs h1
        refine ⟨keys', ?_, Or.inr ⟨?_, e2⟩⟩
        · cases b1 with
          | false => exact e1
          | true => rw [e1, tableInsert_snd e1, if_pos rfl, hs]
        · show T.entries ≠ 0
          rw [rep_cnt e2]
          have := tableInsert_ne keys k
          rw [e1] at this
          exact this
    · rename_i h0
      have h0 : s.t2.entries = 0 := by
        have : ¬ s.t2.entries ≠ 0 := h0
        omega
      obtain ⟨⟨T, w, b2⟩, h1, h2⟩ := bind_eq_ok'.mp h
      rcases R with ⟨-, R⟩ | ⟨h, R⟩
      swap
      · exact absurd h0 h
      obtain ⟨keys', e1, e2⟩ := rep_ins (rep_pol R _) hn hs h1
      have hne := tableInsert_ne keys k
      rw [e1] at hne
      cases b2 with
      | false =>
        simp only [Bool.false_eq_true, if_false, Except.ok.injEq, Prod.mk.injEq] at h2
        obtain ⟨rfl, rfl, rfl⟩ := h2
        exact ⟨keys', e1, Or.inl ⟨h0, e2⟩⟩
      | true =>
        simp only [if_true] at h2
        split at h2
        · obtain ⟨t2', i1, i2⟩ := bind_eq_ok'.mp h2
          simp only [Except.ok.injEq, Prod.mk.injEq] at i2
          obtain ⟨rfl, rfl, rfl⟩ := i2
          obtain ⟨j1, j2⟩ := incorporate_rep e2 hne i1
          exact ⟨keys', by rw [e1, tableInsert_snd e1, hs], Or.inr ⟨j2, j1⟩⟩
        · simp only [Except.ok.injEq, Prod.mk.injEq] at h2
          obtain ⟨rfl, rfl, rfl⟩ := h2
          exact ⟨keys', by rw [e1, tableInsert_snd e1, hs], Or.inl ⟨h0, e2⟩⟩
  size s keys R := plus_size R

/-! ## Tables that always answer -/

/-- A configuration with linear probing that grows in time and not for ever. -/
structure Good (A : Conf κ) (adm : Nat → Prop) (I : Pol → Prop) (N B : Nat) : Prop where
  lin : Lin A.cfg adm
  pol : PolOk A.cfg A.grow adm I N B
  tick : ∀ p r, I p → I { p with rem := r }
  hN : N ≤ undefId

/-- A table that represents the keys and can go on. -/
structure Alive (A : Conf κ) (adm : Nat → Prop) (I : Pol → Prop) (T : Table κ Pol) (keys : List κ) : Prop where
  rep : Rep A.cfg undefId T (idMap keys)
  ready : Ready A.cfg undefId adm I T

theorem Alive.pol {A : Conf κ} {adm : Nat → Prop} {I : Pol → Prop} {T : Table κ Pol} {keys : List κ} (R : Alive A adm I T keys) {p : Pol}
    (hp : I p) : Alive A adm I { T with pol := p } keys :=
  ⟨rep_pol R.rep p, ⟨(rep_pol R.rep p).ok, R.ready.adm, R.ready.room, hp⟩⟩

theorem alive_new {A : Conf κ} {adm : Nat → Prop} {I : Pol → Prop} {N B : Nat} (G : Good A adm I N B) {lf n res : Nat} (h : I ⟨lf, n, n⟩)
    (ha : adm (if res > 0 then A.cfg.minSize res else 4)) : Alive A adm I (newTable A.cfg lf n res) [] := by
  refine ⟨rep_new A.cfg lf n res, (rep_new A.cfg lf n res).ok, ?_, ?_, h⟩
  · show adm (freshCells κ (if res > 0 then A.cfg.minSize res else 4)).length
    rw [freshCells, List.length_replicate]
    exact ha
  · show 0 < (freshCells κ (if res > 0 then A.cfg.minSize res else 4)).length
    rw [freshCells, List.length_replicate]
    exact G.lin.pos _ ha

theorem alive_ins {A : Conf κ} {adm : Nat → Prop} {I : Pol → Prop} {N B : Nat} (G : Good A adm I N B) {T : Table κ Pol} {keys : List κ}
    (R : Alive A adm I T keys) (hn : keys.length < N) (k : κ) {v : Nat} (hv : v = keys.length) :
    ∃ T' keys' w b, insert A.cfg A.grow undefId (B + 2) T k v = .ok (T', w, b) ∧ tableInsert keys k = (keys', w, b) ∧
      Alive A adm I T' keys' := by
  have hN := G.hN
  have hc := rep_cnt R.rep
  obtain ⟨T', w, b, e1, e2, -⟩ := insert_total (undef := undefId) G.lin G.pol B T k v R.ready (by omega) (by omega) (by omega)
  obtain ⟨keys', f1, f2⟩ := rep_ins R.rep (by omega) hv e1
  exact ⟨T', keys', w, b, e1, f1, f2, e2⟩

theorem total_single {A : Conf κ} {adm : Nat → Prop} {I : Pol → Prop} {N B : Nat} (G : Good A adm I N B)
    (lf n res : Nat) (h : I ⟨lf, n, n⟩) (ha : adm (if res > 0 then A.cfg.minSize res else 4)) : Total (single A (B + 2) lf n res) N (Alive A adm I) (Alive A adm I) where
  new := alive_new G h ha
  root T keys k R hn := by
    obtain ⟨T', keys', w, b1, e1, e2, e3⟩ := alive_ins G R hn k (rep_cnt R.rep)
    refine ⟨T', ?_, ?_⟩
    · change (insert A.cfg A.grow undefId (B + 2) T k (T : Table κ Pol).entries).bind (fun r => .ok r.1) = _
      rw [e1]; rfl
    · rw [e2]; exact e3
  start _ _ R := R
  ins T keys k keys' id b1 R hn h := by
    change Table κ Pol at T
    have R' := R.pol (G.tick T.pol (T.pol.rem - 1) R.ready.inv)
    obtain ⟨T', keys2, w, b2, e1, e2, e3⟩ := alive_ins G R' hn k (rep_cnt R.rep)
    rw [e2] at h
    simp only [Prod.mk.injEq] at h
    obtain ⟨rfl, rfl, rfl⟩ := h
    exact ⟨T', e1, e3⟩
  size T keys R := rep_cnt R.rep

theorem incorporate_total {A1 A2 : Conf κ} {adm : Nat → Prop} {I : Pol → Prop} {N B : Nat} (G : Good A2 adm I N B) {t1 t2 : Table κ Pol}
    {keys : List κ} (R : Rep A1.cfg undefId t1 (idMap keys)) (hn : keys.length ≤ N) (hne : keys.length ≠ 0) (hp : I t2.pol) (newsize : Nat)
    (ha : adm (A2.cfg.minSize newsize)) :
    ∃ t2', incorporate A2 (B + 2) t1 t2 newsize = .ok t2' ∧ Alive A2 adm I t2' keys ∧ t2'.entries ≠ 0 := by
  have hc := rep_cnt R
  have R0 : Ready A2.cfg undefId adm I (σ := Pol) { cells := freshCells κ (A2.cfg.minSize newsize), entries := 0, pol := t2.pol } := by
    refine ⟨⟨wf_fresh A2.cfg _, (used_fresh _).symm, fun k v hk => absurd hk (has_fresh _ k v)⟩, ?_, ?_, hp⟩
    · show adm (freshCells κ _).length
      rw [freshCells, List.length_replicate]
      exact ha
    · show 0 < (freshCells κ _).length
      rw [freshCells, List.length_replicate]
      exact G.lin.pos _ ha
  obtain ⟨t2', e1, e2, -⟩ := moveAll_total (m := 0) (insert_spec A2.cfg A2.grow undefId (B + 2))
    (fun T' k' v' RT hm hn hv' => insert_total (undef := undefId) G.lin G.pol B T' k' v' RT (by omega) hn hv') t1.cells _ R0 (Nat.zero_le _)
    (by show 0 + used t1.cells ≤ N; rw [← R.ok.cnt]; omega) (fun k v hkv => R.ok.vals k v hkv)
  have e : incorporate A2 (B + 2) t1 t2 newsize = .ok t2' := by
    unfold incorporate reserve
    rw [if_pos (by show t1.entries > 0; omega)]
    exact e1
  obtain ⟨j1, j2⟩ := incorporate_rep R hne e
  exact ⟨t2', e, ⟨j1, e2⟩, j2⟩

/-- The table that is in use can go on. -/
def PlusAlive (A1 A2 : Conf κ) (adm1 adm2 : Nat → Prop) (I1 I2 : Pol → Prop) (s : Two κ) (keys : List κ) : Prop :=
  I2 s.t2.pol ∧ ((s.t2.entries = 0 ∧ Alive A1 adm1 I1 s.t1 keys) ∨ (s.t2.entries ≠ 0 ∧ Alive A2 adm2 I2 s.t2 keys))

theorem PlusAlive.rel {A1 A2 : Conf κ} {adm1 adm2 : Nat → Prop} {I1 I2 : Pol → Prop} {s : Two κ} {keys : List κ}
    (R : PlusAlive A1 A2 adm1 adm2 I1 I2 s keys) : PlusRel A1 A2 s keys := by
  rcases R.2 with ⟨h, R⟩ | ⟨h, R⟩
  · exact Or.inl ⟨h, R.rep⟩
  · exact Or.inr ⟨h, R.rep⟩

theorem total_plus {A1 A2 : Conf κ} {adm1 adm2 : Nat → Prop} {I1 I2 : Pol → Prop} {N B : Nat}
    (G1 : Good A1 adm1 I1 N B) (G2 : Good A2 adm2 I2 N B) (lf n res : Nat) (h1 : I1 ⟨lf, n, n⟩) (h2 : I2 ⟨95, n, n⟩)
    (ha : adm1 (if res > 0 then A1.cfg.minSize res else 4)) (ha2 : ∀ h, adm2 (A2.cfg.minSize h)) :
    Total (plus A1 A2 (B + 2) lf n res) N (fun s keys => PlusAlive A1 A2 adm1 adm2 I1 I2 s keys ∧ s.t2.entries = 0)
      (PlusAlive A1 A2 adm1 adm2 I1 I2) where
  new := ⟨⟨h2, Or.inl ⟨rfl, alive_new G1 h1 ha⟩⟩, rfl⟩
  root s keys k R hn := by
    change Two κ at s
    have hs := plus_size R.1.rel
    obtain ⟨⟨hp, R⟩, h0⟩ := R
    rcases R with ⟨-, R⟩ | ⟨h, -⟩
    swap
    · exact absurd h0 h
    obtain ⟨T', keys', w, b1, e1, e2, e3⟩ := alive_ins G1 R hn k hs
    refine ⟨⟨T', s.t2⟩, ?_, ?_⟩
    · change (if s.t2.entries ≠ 0 then .error .ub
        else (insert A1.cfg A1.grow undefId (B + 2) s.t1 k s.size).bind fun r => .ok ⟨r.1, s.t2⟩) = (.ok ⟨T', s.t2⟩ : Res (Two κ))
      rw [if_neg (fun h => h h0), e1]; rfl
    · rw [e2]; exact ⟨⟨hp, Or.inl ⟨h0, e3⟩⟩, h0⟩
  start _ _ R := R.1
  ins s keys k keys' id b1 R hn h := by
    change Two κ at s
    have hs := plus_size R.rel
    obtain ⟨hp, R⟩ := R
    have hp' : I2 (tick s.t2).pol := G2.tick _ _ hp
    change ∃ s', plusIns A1 A2 (B + 2) s k = .ok (s', id, b1) ∧ _
    unfold plusIns
    dsimp only
    rcases R with ⟨h0, R⟩ | ⟨h0, R⟩
    · rw [if_neg (by show ¬ s.t2.entries ≠ 0; omega)]
      obtain ⟨T', keys2, w, b2, e1, e2, e3⟩ := alive_ins G1 (R.pol (G1.tick s.t1.pol (s.t1.pol.rem - 1) R.ready.inv)) hn k hs
      have e1 : insert A1.cfg A1.grow undefId (B + 2) (tick s.t1) k s.size = .ok (T', w, b2) := e1
      rw [e2] at h
      simp only [Prod.mk.injEq] at h
      obtain ⟨rfl, rfl, rfl⟩ := h
      rw [e1, bind_ok']
      have hne := tableInsert_ne keys k
      have hl := tableInsert_length keys k
      rw [e2] at hne hl
      cases b2 with
      | false => exact ⟨⟨T', tick s.t2⟩, rfl, hp', Or.inl ⟨h0, e3⟩⟩
      | true =>
        have hw := tableInsert_snd e2
        simp only [if_true]
        split
        · rename_i newsize _
          obtain ⟨t2', i1, i2, i3⟩ := incorporate_total G2 (t2 := tick s.t2) e3.rep (by dsimp only at hl; omega) hne hp' newsize (ha2 _)
          rw [i1, bind_ok']
          exact ⟨⟨T', t2'⟩, by rw [hw, hs], i2.ready.inv, Or.inr ⟨i3, i2⟩⟩
        · exact ⟨⟨T', tick s.t2⟩, by rw [hw, hs], hp', Or.inl ⟨h0, e3⟩⟩
    · rw [if_pos (by exact h0)]
      obtain ⟨T', keys2, w, b2, e1, e2, e3⟩ := alive_ins G2 (R.pol hp') hn k hs
      have e1 : insert A2.cfg A2.grow undefId (B + 2) (tick s.t2) k s.size = .ok (T', w, b2) := e1
      rw [e2] at h
      simp only [Prod.mk.injEq] at h
      obtain ⟨rfl, rfl, rfl⟩ := h
      rw [e1, bind_ok']
      have hne := tableInsert_ne keys k
      rw [e2] at hne
      refine ⟨⟨tick s.t1, T'⟩, ?_, e3.ready.inv, Or.inr ⟨?_, e3⟩⟩
      · cases b2 with
        | false => rfl
        | true => rw [if_pos rfl, tableInsert_snd e2, hs]
      · show T'.entries ≠ 0
        rw [rep_cnt e3.rep]; exact hne
  size s keys R := plus_size R.rel

end Tdc.HT
