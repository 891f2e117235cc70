import Verif.Lemmas.HashMap
import Verif.Model.Trie
import Mathlib.Tactic.IntervalCases

/-!
# Property C32: `HashMap`

The specification is an association list in which the first insertion of a key wins.
-/

namespace Tdc
namespace HM

variable {κ σ : Type} [DecidableEq κ]

/-- The answers of a finite map `m` to a history of insertions: the value stored under the key, and whether it was inserted. -/
def mapAnswers (m : List (κ × Nat)) : List (κ × Nat) → List (Nat × Bool)
  | [] => []
  | (k, v) :: ops =>
    match m.lookup k with
    | some w => (w, false) :: mapAnswers m ops
    | none => (v, true) :: mapAnswers (m ++ [(k, v)]) ops

/-- The finite map after the history. -/
def mapAfter (m : List (κ × Nat)) : List (κ × Nat) → List (κ × Nat)
  | [] => m
  | (k, v) :: ops => mapAfter (if (m.lookup k).isSome then m else m ++ [(k, v)]) ops

/-- The table represents the finite map. -/
structure Rep (C : Cfg κ) (undef : Nat) (T : Table κ σ) (m : List (κ × Nat)) : Prop where
  ok : Ok C undef T
  has : ∀ k v, Has T.cells k v ↔ m.lookup k = some v
  cnt : T.entries = m.length

theorem lookup_append (m : List (κ × Nat)) (k k' : κ) (v : Nat) : (m ++ [(k, v)]).lookup k' =
    match m.lookup k' with
    | some w => some w
    | none => if k' = k then some v else none := by
  induction m with
  | nil =>
    simp only [List.nil_append, List.lookup_cons, List.lookup_nil]
    by_cases e : k' = k
    · simp [e]
    · have : (k' == k) = false := by simpa using e
      simp [e, this]
  | cons a m ih =>
    obtain ⟨x, w⟩ := a
    simp only [List.cons_append, List.lookup_cons]
    by_cases e : k' = x
    · simp [e]
    · have : (k' == x) = false := by simpa using e
      simp [this, ih]

theorem rep_insert {C : Cfg κ} {undef : Nat} {T T' : Table κ σ} {m : List (κ × Nat)} {ins : Table κ σ → κ → Nat → Res (Table κ σ × Nat × Bool)}
    (hi : InsSpec C undef ins) (R : Rep C undef T m) {k : κ} {v w : Nat} {b : Bool} (hv : v ≠ undef) (h : ins T k v = .ok (T', w, b)) :
    (match m.lookup k with
      | some u => w = u ∧ b = false ∧ Rep C undef T' m
      | none => w = v ∧ b = true ∧ Rep C undef T' (m ++ [(k, v)])) := by
  obtain ⟨o1, o2, o3⟩ := hi T k v T' w b R.ok hv h
  cases hl : m.lookup k with
  | some u =>
    obtain ⟨a1, a2, a3, a4⟩ := o2 u ((R.has k u).2 hl)
    exact ⟨a3, a4, o1, fun k' v' => by rw [a1]; exact R.has k' v', by rw [a2]; exact R.cnt⟩
  | none =>
    obtain ⟨a1, a2, a3, a4⟩ := o3 (fun u hu => by rw [(R.has k u).1 hu] at hl; cases hl)
    refine ⟨a1, a2, o1, fun k' v' => ?_, by rw [a3, R.cnt]; simp⟩
    rw [a4, lookup_append, R.has]
    by_cases e : k' = k
    · subst e
      rw [hl]
      simp [eq_comm]
    · cases m.lookup k' with
      | none => simp [e]
      | some u => simp [e]

theorem rep_init (C : Cfg κ) (undef : Nat) (p : σ) : Rep C undef (init p) ([] : List (κ × Nat)) :=
  ⟨⟨wf_fresh C 4, (used_fresh 4).symm, fun k v hk => absurd hk (has_fresh 4 k v)⟩,
    fun k v => ⟨fun h => absurd h (has_fresh 4 k v), fun h => by cases h⟩, rfl⟩

theorem run_spec (C : Cfg κ) (grow : Grow σ) (undef depth : Nat) : ∀ (ops : List ((σ → σ) × κ × Nat)) (T T' : Table κ σ) (m : List (κ × Nat)) rs,
    Rep C undef T m → (∀ o ∈ ops, o.2.2 ≠ undef) → run C grow undef depth ops T = .ok (rs, T') →
    rs = mapAnswers m (ops.map (·.2)) ∧ Rep C undef T' (mapAfter m (ops.map (·.2))) := by
  intro ops
  induction ops with
  | nil =>
    intro T T' m rs R _ h
    injection h with h
    injection h with h1 h2
    subst h1 h2
    exact ⟨rfl, R⟩
  | cons o ops ih =>
    obtain ⟨f, k, v⟩ := o
    intro T T' m rs R hv h
    rw [run] at h
    cases hi : insert C grow undef depth { T with pol := f T.pol } k v with
    | error e => rw [hi] at h; cases h
    | ok r =>
      obtain ⟨T1, w, b⟩ := r
      rw [hi] at h
      dsimp only at h
      cases hr : run C grow undef depth ops T1 with
      | error e => rw [hr] at h; cases h
      | ok q =>
        obtain ⟨rs', T2⟩ := q
        rw [hr] at h
        injection h with h
        injection h with h1 h2
        subst h1 h2
        have R0 : Rep C undef { T with pol := f T.pol } m := ⟨⟨R.ok.wf, R.ok.cnt, R.ok.vals⟩, R.has, R.cnt⟩
        have := rep_insert (insert_spec C grow undef depth) R0 (hv (f, k, v) (by simp)) hi
        simp only [List.map_cons, mapAnswers, mapAfter]
        cases hl : m.lookup k with
        | some u =>
          rw [hl] at this
          obtain ⟨a1, a2, a3⟩ := this
          obtain ⟨b1, b2⟩ := ih T1 T2 m rs' a3 (fun o ho => hv o (by simp [ho])) hr
          refine ⟨by rw [a1, a2, b1], ?_⟩
          simpa using b2
        | none =>
          rw [hl] at this
          obtain ⟨a1, a2, a3⟩ := this
          obtain ⟨b1, b2⟩ := ih T1 T2 _ rs' a3 (fun o ho => hv o (by simp [ho])) hr
          refine ⟨by rw [a1, a2, b1], ?_⟩
          simpa using b2

/-- **C32 (whenever the calls return).** For every hash function, prober, size manager and growth policy, and for every history of
insertions that returns: through all growth, every answer is that of a finite map, and `entries()` is its number of keys. -/
theorem hashmap_refines_partial (C : Cfg κ) (grow : Grow σ) (undef depth : Nat) (p : σ) (ops : List ((σ → σ) × κ × Nat))
    (hv : ∀ o ∈ ops, o.2.2 ≠ undef) (rs : List (Nat × Bool)) (T : Table κ σ) (h : run C grow undef depth ops (init p) = .ok (rs, T)) :
    rs = mapAnswers [] (ops.map (·.2)) ∧ T.entries = (mapAfter [] (ops.map (·.2))).length := by
  obtain ⟨h1, h2⟩ := run_spec C grow undef depth ops _ _ _ _ (rep_init C undef p) hv h
  exact ⟨h1, h2.cnt⟩

theorem run_total {C : Cfg κ} {grow : Grow σ} {undef N B : Nat} {adm : Nat → Prop} {I : σ → Prop} (L : Lin C adm) (P : PolOk C grow adm I N B) :
    ∀ (ops : List ((σ → σ) × κ × Nat)) (T : Table κ σ), Ready C undef adm I T → T.entries + ops.length ≤ N →
      (∀ o ∈ ops, o.2.2 ≠ undef ∧ ∀ p, I p → I (o.1 p)) → ∃ rs T', run C grow undef (B + 2) ops T = .ok (rs, T') := by
  intro ops
  induction ops with
  | nil => intro T _ _ _; exact ⟨_, _, rfl⟩
  | cons o ops ih =>
    obtain ⟨f, k, v⟩ := o
    intro T R hN hv
    have hv0 := hv (f, k, v) (by simp)
    simp only [List.length_cons] at hN
    have R0 : Ready C undef adm I { T with pol := f T.pol } := ⟨⟨R.ok.wf, R.ok.cnt, R.ok.vals⟩, R.adm, R.room, hv0.2 _ R.inv⟩
    obtain ⟨T1, w, b, e1, R1, -⟩ := insert_total (undef := undef) L P B { T with pol := f T.pol } k v R0 (by omega)
      (by show T.entries + 1 ≤ N; omega) hv0.1
    have he : T1.entries ≤ T.entries + 1 := by
      obtain ⟨-, s1, s2⟩ := insert_spec C grow undef (B + 2) _ k v T1 w b R0.ok hv0.1 e1
      by_cases hh : ∃ u, Has T.cells k u
      · obtain ⟨u, hu⟩ := hh
        have := (s1 u hu).2.1
        have this : T1.entries = T.entries := this
        omega
      · push Not at hh
        exact Nat.le_of_eq (s2 hh).2.2.1
    obtain ⟨rs, T2, e2⟩ := ih T1 R1 (by omega) (fun o ho => hv o (by simp [ho]))
    refine ⟨(w, b) :: rs, T2, ?_⟩
    rw [run, e1]; dsimp only; rw [e2]

/-- **C32 (linear probing).** With a linear prober and a size manager that reduces modulo the table size, and with a growth policy that
grows before the table is full and not for ever, every history of insertions returns and answers like a finite map. -/
theorem hashmap_linear_partial {C : Cfg κ} {grow : Grow σ} {adm : Nat → Prop} {I : σ → Prop} (L : Lin C adm) (h4 : adm 4) (undef : Nat)
    (p : σ) (hp : I p) (ops : List ((σ → σ) × κ × Nat)) {B : Nat} (P : PolOk C grow adm I ops.length B)
    (hv : ∀ o ∈ ops, o.2.2 ≠ undef ∧ ∀ p, I p → I (o.1 p)) :
    ∃ depth T, run C grow undef depth ops (init p) = .ok (mapAnswers [] (ops.map (·.2)), T) ∧
      T.entries = (mapAfter [] (ops.map (·.2))).length := by
  have R : Ready C undef adm I (init p : Table κ σ) := ⟨(rep_init C undef p).ok, h4, by show 0 < (freshCells κ 4).length; simp [freshCells], hp⟩
  obtain ⟨rs, T, e⟩ := run_total (undef := undef) L P ops _ R (by show 0 + ops.length ≤ _; omega) hv
  obtain ⟨h1, h2⟩ := hashmap_refines_partial C grow undef (B + 2) p ops (fun o ho => (hv o ho).1) rs T e
  exact ⟨B + 2, T, by rw [e, h1], h2⟩

/-! ### The default configuration -/

/-- Any hash function with `LinearProber` and `SizeManagerPow2`, the default of the tries (`HashTrie.hpp:13`). -/
def linPow2 (hash : κ → Nat) : Cfg κ := { hash := hash, modT := pow2Mod, get := linGet, minSize := pow2Min }

theorem pow2Min_eq (h : Nat) : ∃ k, pow2Min h = 2 ^ k ∧ 1 ≤ 2 ^ k := by
  unfold pow2Min
  exact ⟨_, by rw [Nat.shiftLeft_eq, Nat.one_mul], Nat.one_le_two_pow⟩

theorem pow2Min_gt (h : Nat) (hh : h < 2 ^ 64) : h < pow2Min h := by
  unfold pow2Min
  have h1 : max h 3 < 2 ^ 64 := by omega
  have h2 := lt_two_pow_bitsFor (max h 3) h1
  rw [bitsFor, if_neg (by omega)] at h2
  rw [Nat.shiftLeft_eq, Nat.one_mul]
  omega

theorem lin_linPow2 (hash : κ → Nat) : Lin (linPow2 hash) (fun s => ∃ k, s = 2 ^ k) where
  pos := by rintro s ⟨k, rfl⟩; exact Nat.two_pow_pos k
  modT := by
    rintro s i k p ⟨n, rfl⟩
    show i &&& (2 ^ n - 1) = i % 2 ^ n
    exact Nat.and_two_pow_sub_one_eq_mod i n
  get := fun _ _ _ _ => rfl

theorem polOk_pow2 (hash : κ → Nat) (N : Nat) (hN : N < 2 ^ 32) :
    PolOk (linPow2 hash) growth (fun s => ∃ k, s = 2 ^ k) (fun p => 1 ≤ p.lf ∧ p.lf ≤ 99) N (100 * N + 4) where
  room := by
    rintro p s e ⟨h1, h2⟩ ⟨k, hk⟩ h
    have hs : 0 < s := by rw [hk]; exact Nat.two_pow_pos k
    unfold growth at h
    split at h
    · dsimp only at h; split at h <;> cases h
    · rename_i hlt
      have : s * p.lf ≤ s * 99 := Nat.mul_le_mul_left s h2
      omega
  grows := by
    rintro p s e h p' ⟨h1, h2⟩ ⟨k, hk⟩ hB hg
    unfold growth at hg
    have key : s ≤ h → h < 2 ^ 64 → s < pow2Min h := fun a b => Nat.lt_of_le_of_lt a (pow2Min_gt h b)
    refine ⟨?_, by obtain ⟨k, e, -⟩ := pow2Min_eq h; exact ⟨k, e⟩⟩
    show s < pow2Min h
    split at hg
    · dsimp only at hg
      split at hg
      · rename_i hlt
        injection hg with hg
        injection hg with hg1 hg2
        refine key ?_ ?_ <;> rw [← hg1]
        · omega
        · omega
      · injection hg with hg
        injection hg with hg1 hg2
        by_cases hs : s ≤ 1
        · have h0 : h = 0 := by omega
          rw [h0]
          exact Nat.lt_of_le_of_lt hs (by decide +kernel)
        · refine key ?_ ?_ <;> rw [← hg1] <;> omega
    · cases hg
  inv := by
    rintro p s e h p' ⟨h1, h2⟩ hg
    unfold growth at hg
    split at hg
    · dsimp only at hg
      split at hg
      · injection hg with hg
        injection hg with hg1 hg2
        rw [← hg2]; exact ⟨by show 1 ≤ 95; decide, by show 95 ≤ 99; decide⟩
      · injection hg with hg
        injection hg with hg1 hg2
        rw [← hg2]; exact ⟨h1, h2⟩
    · cases hg
  stop := by
    rintro p s e ⟨h1, h2⟩ he hB
    unfold growth
    rw [if_neg]
    have : s * 1 ≤ s * p.lf := Nat.mul_le_mul_left s h1
    omega

/-- **C32 (the default configuration of the hash tries).** With `LinearProber` and `SizeManagerPow2`, any hash function, and a load factor of
1 to 99 percent (before each call the outside world may set it, and the remaining number of characters, anew), every history of fewer than
`2^32` insertions returns and answers like a finite map. -/
theorem hashmap_default (hash : κ → Nat) (undef : Nat) (p : Pol) (hp : 1 ≤ p.lf ∧ p.lf ≤ 99) (ops : List ((Pol → Pol) × κ × Nat))
    (hn : ops.length < 2 ^ 32) (hv : ∀ o ∈ ops, o.2.2 ≠ undef ∧ ∀ p, (1 ≤ p.lf ∧ p.lf ≤ 99) → 1 ≤ (o.1 p).lf ∧ (o.1 p).lf ≤ 99) :
    ∃ depth T, run (linPow2 hash) growth undef depth ops (init p) = .ok (mapAnswers [] (ops.map (·.2)), T) ∧
      T.entries = (mapAfter [] (ops.map (·.2))).length :=
  hashmap_linear_partial (lin_linPow2 hash) ⟨2, rfl⟩ undef p hp ops (polOk_pow2 hash ops.length hn) hv

/-! ### The use in the tries: the value is the number of entries -/

/-- A history of `m_table.insert({key, size()})`, as `HashTrie::find_or_insert` and `RollingTrie::find_or_insert` do. -/
def runIds (C : Cfg κ) (grow : Grow σ) (undef depth : Nat) : List ((σ → σ) × κ) → Table κ σ → Res (List (Nat × Bool) × Table κ σ)
  | [], T => .ok ([], T)
  | (f, k) :: ops, T =>
    match insert C grow undef depth { T with pol := f T.pol } k T.entries with
    | .error e => .error e
    | .ok (T, w, b) =>
      match runIds C grow undef depth ops T with
      | .error e => .error e
      | .ok (rs, T) => .ok ((w, b) :: rs, T)

/-- The same history on the list of keys with which the trie models of C08 to C11 represent the table. -/
def tableRun (keys : List κ) : List κ → List (Nat × Bool) × List κ
  | [] => ([], keys)
  | k :: ks =>
    let (keys', w, b) := tableInsert keys k
    let (rs, keys'') := tableRun keys' ks
    ((w, b) :: rs, keys'')

/-- A list of keys as a finite map from keys to their positions. -/
def idMap (keys : List κ) : List (κ × Nat) := keys.zipIdx

theorem idMap_lookup (keys : List κ) (k : κ) : (idMap keys).lookup k = keys.findIdx? (· == k) := by
  unfold idMap
  suffices h : ∀ n, (keys.zipIdx n).lookup k = (keys.findIdx? (· == k)).map (· + n) by
    rw [h 0]; simp
  induction keys with
  | nil => intro n; rfl
  | cons a keys ih =>
    intro n
    rw [List.zipIdx_cons, List.lookup_cons, List.findIdx?_cons]
    by_cases e : k = a
    · subst e; simp
    · have h1 : (k == a) = false := by simpa using e
      have h2 : (a == k) = false := by simpa using Ne.symm e
      rw [h1, h2, ih]
      simp only [Bool.false_eq_true, if_false, Option.map_map]
      congr 1
      funext x
      simp only [Function.comp]
      omega

theorem idMap_append (keys : List κ) (k : κ) : idMap (keys ++ [k]) = idMap keys ++ [(k, keys.length)] := by
  unfold idMap
  rw [List.zipIdx_append]
  simp

theorem runIds_eq {C : Cfg κ} {grow : Grow σ} {undef N B : Nat} {adm : Nat → Prop} {I : σ → Prop} (L : Lin C adm) (P : PolOk C grow adm I N B)
    (hu : N ≤ undef) :
    ∀ (ops : List ((σ → σ) × κ)) (T : Table κ σ) (keys : List κ), Ready C undef adm I T → Rep C undef T (idMap keys) → T.entries + ops.length ≤ N →
      (∀ o ∈ ops, ∀ p, I p → I (o.1 p)) → ∃ T', runIds C grow undef (B + 2) ops T = .ok ((tableRun keys (ops.map (·.2))).1, T') ∧
        Rep C undef T' (idMap (tableRun keys (ops.map (·.2))).2) := by
  intro ops
  induction ops with
  | nil => intro T keys _ R _ _; exact ⟨T, rfl, R⟩
  | cons o ops ih =>
    obtain ⟨f, k⟩ := o
    intro T keys R Q hN hv
    have hv0 := hv (f, k) (by simp)
    simp only [List.length_cons] at hN
    have hne : T.entries ≠ undef := by omega
    have R0 : Ready C undef adm I { T with pol := f T.pol } := ⟨⟨R.ok.wf, R.ok.cnt, R.ok.vals⟩, R.adm, R.room, hv0 _ R.inv⟩
    have Q0 : Rep C undef { T with pol := f T.pol } (idMap keys) := ⟨⟨Q.ok.wf, Q.ok.cnt, Q.ok.vals⟩, Q.has, Q.cnt⟩
    obtain ⟨T1, w, b, e1, R1, -⟩ := insert_total (undef := undef) L P B { T with pol := f T.pol } k T.entries R0 (by omega)
      (by show T.entries + 1 ≤ N; omega) hne
    have hq := rep_insert (insert_spec C grow undef (B + 2)) Q0 hne e1
    have hlen : T.entries = keys.length := by rw [Q.cnt]; simp [idMap]
    rw [runIds, e1]
    dsimp only
    rw [idMap_lookup] at hq
    rw [List.map_cons, tableRun, tableInsert]
    cases hf : keys.findIdx? (· == k) with
    | some i =>
      rw [hf] at hq
      obtain ⟨a1, a2, a3⟩ := hq
      have hc1 := a3.cnt
      have hc0 := Q.cnt
      obtain ⟨T2, e2, Q2⟩ := ih T1 keys R1 a3 (by omega) (fun o ho => hv o (by simp [ho]))
      rw [e2]
      dsimp only
      exact ⟨T2, by rw [a1, a2], Q2⟩
    | none =>
      rw [hf] at hq
      obtain ⟨a1, a2, a3⟩ := hq
      rw [hlen, ← idMap_append] at a3
      have hc1 := a3.cnt
      rw [idMap_append, List.length_append] at hc1
      have hc0 := Q.cnt
      simp only [List.length_singleton] at hc1
      obtain ⟨T2, e2, Q2⟩ := ih T1 (keys ++ [k]) R1 a3 (by omega) (fun o ho => hv o (by simp [ho]))
      rw [e2]
      dsimp only
      exact ⟨T2, by rw [a1, a2, hlen], Q2⟩

/-- **C32 (the table of the tries).** In the default configuration, at most `2^32 - 1` calls of `m_table.insert({key, size()})` answer
exactly like the list of keys by which the trie models represent the table. -/
theorem hashmap_is_table (hash : κ → Nat) (p : Pol) (hp : 1 ≤ p.lf ∧ p.lf ≤ 99) (ops : List ((Pol → Pol) × κ))
    (hn : ops.length ≤ undefId) (hv : ∀ o ∈ ops, ∀ p, (1 ≤ p.lf ∧ p.lf ≤ 99) → 1 ≤ (o.1 p).lf ∧ (o.1 p).lf ≤ 99) :
    ∃ depth T, runIds (linPow2 hash) growth undefId depth ops (init p) = .ok ((tableRun [] (ops.map (·.2))).1, T) ∧
      T.entries = (tableRun [] (ops.map (·.2))).2.length := by
  have P := polOk_pow2 hash ops.length (by unfold undefId at hn; omega)
  have R : Ready (linPow2 hash) undefId (fun s => ∃ k, s = 2 ^ k) (fun p : Pol => 1 ≤ p.lf ∧ p.lf ≤ 99) (init p : Table κ Pol) :=
    ⟨(rep_init _ undefId p).ok, ⟨2, rfl⟩, by show 0 < (freshCells κ 4).length; simp [freshCells], hp⟩
  obtain ⟨T, e1, e2⟩ := runIds_eq (lin_linPow2 hash) P hn ops (init p) [] R (rep_init _ undefId p) (by show 0 + ops.length ≤ _; omega) hv
  exact ⟨_, T, e1, by rw [e2.cnt]; simp [idMap]⟩

/-! ### Configurations that do not terminate -/

/-- The full property for a configuration: every history of insertions returns. -/
def Terminates (C : Cfg Nat) : Prop := ∀ (p : Pol), 1 ≤ p.lf ∧ p.lf ≤ 99 → ∀ ops : List ((Pol → Pol) × Nat × Nat), ops.length < 2 ^ 32 →
  (∀ o ∈ ops, o.2.2 ≠ undefId ∧ o.1 = id) → ∃ depth r, run C growth undefId depth ops (init p) = .ok r

theorem terminates_default (hash : Nat → Nat) : Terminates (linPow2 hash) := by
  intro p hp ops hn hv
  obtain ⟨d, T, e, -⟩ := hashmap_default hash undefId p hp ops hn (fun o ho => ⟨(hv o ho).1, fun p hp => by rw [(hv o ho).2]; exact hp⟩)
  exact ⟨d, _, e⟩

theorem run_append_loop {C : Cfg κ} {grow : Grow σ} {undef : Nat} {k : κ} {v : Nat} (f : σ → σ) : ∀ (ops : List ((σ → σ) × κ × Nat)) (T : Table κ σ) d0 rs T',
    run C grow undef d0 ops T = .ok (rs, T') → (∀ d, insert C grow undef d { T' with pol := f T'.pol } k v = .error .loop) →
    ∀ d r, run C grow undef d (ops ++ [(f, k, v)]) T ≠ .ok r := by
  intro ops
  induction ops with
  | nil =>
    intro T d0 rs T' h hl d r e
    injection h with h
    injection h with h1 h2
    subst h2
    rw [List.nil_append, run, hl] at e
    cases e
  | cons o ops ih =>
    obtain ⟨g, k', v'⟩ := o
    intro T d0 rs T' h hl d r e
    rw [run] at h
    rw [List.cons_append, run] at e
    cases h1 : insert C grow undef d0 { T with pol := g T.pol } k' v' with
    | error x => rw [h1] at h; cases h
    | ok q =>
      obtain ⟨T1, w, b⟩ := q
      rw [h1] at h
      dsimp only at h
      cases h2 : run C grow undef d0 ops T1 with
      | error x => rw [h2] at h; cases h
      | ok q2 =>
        obtain ⟨rs2, T2⟩ := q2
        rw [h2] at h
        injection h with h
        injection h with _ h
        subst h
        cases h3 : insert C grow undef d { T with pol := g T.pol } k' v' with
        | error x => rw [h3] at e; cases e
        | ok q3 =>
          have hq : q3 = (T1, w, b) := by
            have a1 := insert_mono_le C grow undef (Nat.le_max_left d0 d) _ _ _ _ h1
            have a2 := insert_mono_le C grow undef (Nat.le_max_right d0 d) _ _ _ _ h3
            rw [a1] at a2
            injection a2 with a2
            exact a2.symm
          subst hq
          rw [h3] at e
          dsimp only at e
          cases h4 : run C grow undef d (ops ++ [(f, k, v)]) T1 with
          | error x => rw [h4] at e; cases e
          | ok q4 => exact ih T1 d0 rs2 T2 h2 hl d q4 h4

/-- The quadratic prober with power of two sizes and the identity as hash function. -/
def quadPow2 : Cfg Nat := { hash := id, modT := pow2Mod, get := quadGet, minSize := pow2Min }

theorem probe_none_loop {C : Cfg κ} {grow : Grow σ} {undef : Nat} {T : Table κ σ} {k : κ} {v : Nat} (h : probe C T.cells k = none) (d : Nat) :
    insert C grow undef d T k v = .error .loop := by
  cases d with
  | zero => rfl
  | succ d => rw [insert, h]

/-- The table after inserting 0, 1, 4 and 9: 16 cells. -/
def quadTable : Table Nat Pol :=
  { cells := [some (0, 10), some (1, 11), none, none, some (4, 12), none, none, none, none, some (9, 13), none, none, none, none, none, none],
    entries := 4, pol := ⟨30, 1000, 1000⟩ }

theorem quad_run : (run quadPow2 growth undefId 3 [(id, 0, 10), (id, 1, 11), (id, 4, 12), (id, 9, 13)] (init ⟨30, 1000, 1000⟩)).map
    (fun r => (r.2.cells, r.2.entries, r.2.pol)) = .ok (quadTable.cells, quadTable.entries, quadTable.pol) := by decide +kernel

/-- **C32, negation: quadratic probing.** With `QuadraticProber` and `SizeManagerPow2` (the default template arguments of the class, and
selectable for the tries) the probing sequence visits only the cells at square distances: after inserting the keys 0, 1, 4, 9 with the
default load factor (4 of 16 cells are used) inserting 16 does not terminate. -/
theorem hashmap_quad_hangs : ¬ Terminates quadPow2 := by
  intro H
  obtain ⟨d, r, e⟩ := H ⟨30, 1000, 1000⟩ (by decide) ([(id, 0, 10), (id, 1, 11), (id, 4, 12), (id, 9, 13)] ++ [(id, 16, 14)]) (by decide) (by
    intro o ho
    simp only [List.cons_append, List.nil_append, List.mem_cons, List.not_mem_nil, or_false] at ho
    rcases ho with rfl | rfl | rfl | rfl | rfl <;> exact ⟨by decide, rfl⟩)
  cases hr : run quadPow2 growth undefId 3 [(id, 0, 10), (id, 1, 11), (id, 4, 12), (id, 9, 13)] (init ⟨30, 1000, 1000⟩) with
  | error x => have := quad_run; rw [hr] at this; cases this
  | ok q =>
    obtain ⟨rs, T⟩ := q
    have h1 := quad_run
    rw [hr] at h1
    injection h1 with h1
    injection h1 with h1 h2
    refine run_append_loop id _ _ 3 rs T hr (fun d => probe_none_loop ?_ d) d r e
    show probe quadPow2 T.cells 16 = none
    have h1 : T.cells = quadTable.cells := h1
    rw [h1]
    decide +kernel

/-- That search really never ends: no probe, however late, stops. -/
theorem quad_never_stops (i : Nat) : stops quadTable.cells 16 (seq quadPow2 16 16 i) = false := by
  have h0 : seq quadPow2 16 16 i = i * i % 16 := by
    have hand : ∀ x, pow2Mod x 16 16 i = x % 16 := fun x => Nat.and_two_pow_sub_one_eq_mod x 4
    cases i with
    | zero => decide +kernel
    | succ i =>
      show pow2Mod (quadGet (i + 1) (seq quadPow2 16 16 i) (pow2Mod 16 16 16 0) 16) 16 16 (i + 1) = _
      rw [hand]
      have : pow2Mod 16 16 16 0 = 0 := by decide +kernel
      rw [this, quadGet, Nat.zero_add, Nat.mod_mod_of_dvd _ (by decide)]
  rw [h0, Nat.mul_mod]
  have hlt : i % 16 < 16 := Nat.mod_lt _ (by decide)
  generalize i % 16 = j at hlt
  revert j
  decide +kernel

/-- The linear prober with `SizeManagerNoob`, identity hash. -/
def linNoob : Cfg Nat := { hash := id, modT := noobMod, get := linGet, minSize := noobMin }

/-- The table after inserting 0, 1 and 2. -/
def noobTable (k : Nat) : Table Nat Pol := { cells := ([some (0, 10), some (1, 11), some (2, 12)].take k) ++ List.replicate (4 - k) none, entries := k, pol := ⟨95, 100, 0⟩ }

theorem noob_run : (run linNoob growth undefId 3 [(id, 0, 10), (id, 1, 11), (id, 2, 12)] (init ⟨30, 100, 0⟩)).map
    (fun r => (r.2.cells, r.2.entries, r.2.pol)) = .ok ((noobTable 3).cells, 3, ⟨95, 100, 0⟩) := by decide +kernel

theorem noob_step (k : Nat) (hk : k < 3) (d : Nat) : insert linNoob growth undefId (d + 1) (noobTable k) k (10 + k) = .ok (noobTable (k + 1), 10 + k, true) := by
  have : ∀ k < 3, probe linNoob (noobTable k).cells k = some k ∧ (noobTable k).cells[k]? = some none ∧
      store undefId (noobTable k).cells k k (10 + k) = (noobTable (k + 1)).cells ∧ growth ⟨95, 100, 0⟩ 4 (k + 1) = none ∧ (noobTable (k + 1)).cells.length = 4 := by
    decide +kernel
  obtain ⟨h1, h2, h3, h4, h5⟩ := this k hk
  rw [insert, h1]
  dsimp only
  rw [h2]
  dsimp only
  rw [h3, h5]
  have : growth (noobTable k).pol 4 ((noobTable k).entries + 1) = none := h4
  rw [this]
  rfl

theorem noob_loop : ∀ d, insert linNoob growth undefId d (noobTable 3) 3 13 = .error .loop := by
  intro d
  induction d with
  | zero => rfl
  | succ d ih =>
    have h1 : probe linNoob (noobTable 3).cells 3 = some 3 := by decide +kernel
    have h2 : (noobTable 3).cells[3]? = some none := by decide +kernel
    have h3 : store undefId (noobTable 3).cells 3 3 13 = [some (0, 10), some (1, 11), some (2, 12), some (3, 13)] := by decide +kernel
    have h4 : growth (noobTable 3).pol 4 ((noobTable 3).entries + 1) = some (4, ⟨95, 100, 0⟩) := by decide +kernel
    rw [insert, h1]
    dsimp only
    rw [h2]
    dsimp only
    rw [h3]
    rw [show ([some (0, 10), some (1, 11), some (2, 12), some (3, 13)] : List (Option (Nat × Nat))).length = 4 from rfl, h4]
    dsimp only
    have h5 : reserve linNoob (insert linNoob growth undefId d) { cells := [some (0, 10), some (1, 11), some (2, 12), some (3, 13)], entries := (noobTable 3).entries + 1, pol := ⟨95, 100, 0⟩ } 4 = .error .loop := by
      rw [reserve, if_pos (by decide)]
      show moveAll _ _ (noobTable 0) = _
      cases d with
      | zero => rfl
      | succ d =>
        rw [moveAll, show insert linNoob growth undefId (d + 1) (noobTable 0) 0 10 = _ from noob_step 0 (by decide) d]
        dsimp only
        rw [moveAll, show insert linNoob growth undefId (d + 1) (noobTable (0 + 1)) 1 11 = _ from noob_step 1 (by decide) d]
        dsimp only
        rw [moveAll, show insert linNoob growth undefId (d + 1) (noobTable (1 + 1)) 2 12 = _ from noob_step 2 (by decide) d]
        dsimp only
        rw [moveAll, ih]
    rw [h5]

/-- **C32, negation: small tables that do not grow.** With `SizeManagerNoob` (and few remaining characters) the code asks for a table of
`max(expected, 1.1 * size)` cells, rounded down: for fewer than 10 cells that is no growth.  Inserting four keys moves four entries
into four cells again and again without end. -/
theorem hashmap_noob_hangs : ¬ Terminates linNoob := by
  intro H
  obtain ⟨d, r, e⟩ := H ⟨30, 100, 0⟩ (by decide) ([(id, 0, 10), (id, 1, 11), (id, 2, 12)] ++ [(id, 3, 13)]) (by decide) (by
    intro o ho
    simp only [List.cons_append, List.nil_append, List.mem_cons, List.not_mem_nil, or_false] at ho
    rcases ho with rfl | rfl | rfl | rfl <;> exact ⟨by decide, rfl⟩)
  cases hr : run linNoob growth undefId 3 [(id, 0, 10), (id, 1, 11), (id, 2, 12)] (init ⟨30, 100, 0⟩) with
  | error x => have := noob_run; rw [hr] at this; cases this
  | ok q =>
    obtain ⟨rs, T⟩ := q
    have h1 := noob_run
    rw [hr] at h1
    injection h1 with h1
    injection h1 with h1 h2
    injection h2 with h2 h3
    obtain ⟨c, en, po⟩ := T
    have h1 : c = (noobTable 3).cells := h1
    have h2 : en = 3 := h2
    have h3 : po = ⟨95, 100, 0⟩ := h3
    subst h1 h2 h3
    exact run_append_loop id _ _ 3 rs _ hr noob_loop d r e

/-- **C32, negation: load factor 100.** With the option `load_factor=100` a full table is not grown, and the next new key is searched for
ever, even with linear probing. -/
theorem hashmap_full_hangs : ∀ d r, run (linPow2 id) growth undefId d ([(id, 0, 10), (id, 1, 11), (id, 2, 12), (id, 3, 13)] ++ [(id, 4, 14)]) (init ⟨100, 1000, 1000⟩) ≠ .ok r := by
  intro d r
  cases hr : run (linPow2 id) growth undefId 3 [(id, 0, 10), (id, 1, 11), (id, 2, 12), (id, 3, 13)] (init ⟨100, 1000, 1000⟩) with
  | error x =>
    have : (run (linPow2 id) growth undefId 3 [(id, 0, 10), (id, 1, 11), (id, 2, 12), (id, 3, 13)] (init ⟨100, 1000, 1000⟩)).isOk = true := by decide +kernel
    rw [hr] at this; cases this
  | ok q =>
    obtain ⟨rs, T⟩ := q
    have h1 : (run (linPow2 id) growth undefId 3 [(id, 0, 10), (id, 1, 11), (id, 2, 12), (id, 3, 13)] (init ⟨100, 1000, 1000⟩)).map (fun r => r.2.cells) =
      .ok [some (0, 10), some (1, 11), some (2, 12), some (3, 13)] := by decide +kernel
    rw [hr] at h1
    injection h1 with h1
    refine run_append_loop id _ _ 3 rs T hr (fun d => probe_none_loop ?_ d) d r
    show probe (linPow2 id) T.cells 4 = none
    have h1 : T.cells = [some (0, 10), some (1, 11), some (2, 12), some (3, 13)] := h1
    rw [h1]
    decide +kernel

/-- **C32, negation: `SizeManagerDirect`.** For a key with hash value 0 and a table of 5 cells the last cell is never probed, whatever the
prober. -/
theorem hashmap_direct_misses (C : Cfg κ) (hC : C.modT = directMod) (k : κ) (hk : C.hash k = 0) (i : Nat) : seq C 5 k i ≠ 4 := by
  have : ∀ x, directMod x 5 0 i ≠ 4 := by
    intro x
    have h1 : i * 2 ^ 64 / 5 = i / 5 * 2 ^ 64 + i % 5 * 2 ^ 64 / 5 := by omega
    have h2 : i % 5 < 5 := Nat.mod_lt _ (by decide)
    unfold directMod
    rw [h1]
    generalize i % 5 = r at h2
    rw [Nat.zero_add, Nat.add_comm, Nat.add_mul_mod_self_right]
    interval_cases r <;> decide
  cases i with
  | zero => rw [seq, hC, hk]; exact this _
  | succ i => rw [seq, hC, hk]; exact this _

/-! ### Non-vacuity -/

example : (run (linPow2 id) growth undefId 4 [(id, 0, 10), (id, 16, 11), (id, 32, 12), (id, 0, 13), (id, 5, 14), (id, 16, 15)] (init ⟨30, 1000, 1000⟩)).map (·.1) =
    .ok [(10, true), (11, true), (12, true), (10, false), (14, true), (11, false)] := by decide +kernel

example : mapAnswers [] [(0, 10), (16, 11), (32, 12), (0, 13), (5, 14), (16, 15)] =
    [(10, true), (11, true), (12, true), (10, false), (14, true), (11, false)] := by decide +kernel

end HM
end Tdc
