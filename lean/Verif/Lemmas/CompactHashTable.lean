import Verif.Lemmas.CompactHashGrow

/-!
# Compact hash table: new tables, growing and the interface
-/

namespace Tdc.CSH

variable {t : Tab} {home : Nat → Nat}

/-! ## A new table -/

/-- the empty table with `2 ^ l` positions -/
def emptyTab (l w : Nat) : Tab :=
  ⟨l, 0, w, List.replicate (2 ^ l) false, List.replicate (2 ^ l) false, List.replicate nBuckets ⟨0, []⟩⟩

theorem newTab_pow {l : Nat} (hl : 1 ≤ l) (w : Nat) : newTab (2 ^ l) w = .ok (emptyTab l w) := by
  have h2 : 2 ≤ 2 ^ l := by
    calc 2 = 2 ^ 1 := rfl
      _ ≤ 2 ^ l := Nat.pow_le_pow_right (by decide) hl
  have hp : isPot (2 ^ l) = true := by
    simp only [isPot, Nat.and_two_pow_sub_one_eq_mod, Nat.mod_self, decide_true, Bool.and_true, decide_eq_true_eq]
    omega
  rw [newTab]
  simp only [if_neg (show ¬ (2 ^ l < 2) by omega), hp, if_true, Nat.log2_two_pow]
  rfl

theorem slot_emptyTab (l w p : Nat) : slot (emptyTab l w) p = none := by
  rw [slot, emptyTab]
  simp only [List.getElem?_replicate]
  by_cases h : p / 64 < nBuckets
  · simp [h]
  · simp [h]

theorem repH_emptyTab {l : Nat} (h17 : l ≤ 17) (w : Nat) : RepH (emptyTab l w) (fun _ => 0) (fun _ => none) := by
  have hV : ∀ p, (emptyTab l w).V p = false := by
    intro p
    simp only [Tab.V, emptyTab, List.getD_eq_getElem?_getD, List.getElem?_replicate]
    split <;> rfl
  have hC : ∀ p, (emptyTab l w).C p = false := by
    intro p
    simp only [Tab.C, emptyTab, List.getD_eq_getElem?_getD, List.getElem?_replicate]
    split <;> rfl
  have hno : ∀ h q x, ¬ Has (emptyTab l w) (fun _ => 0) h q x := by
    rintro h q x ⟨p, _, hp, _⟩
    rw [slot_emptyTab] at hp; simp at hp
  refine ⟨⟨⟨⟨by simp [emptyTab], ?_⟩, by simp [emptyTab, Tab.cap], by simp [emptyTab, Tab.cap], h17⟩, ?_, ?_, ?_, ?_⟩, ?_, ?_⟩
  · intro i b hb
    simp only [emptyTab, List.getElem?_replicate] at hb
    split at hb
    · simp only [Option.some.injEq] at hb
      subst hb
      simp [rank]
    · simp at hb
  · intro e _ _
    simp only [slot_emptyTab, hV, hC]
    refine ⟨by simp, by simp, by simp, by simp, by simp, by simp⟩
  · intro p _ h; rw [slot_emptyTab] at h; simp at h
  · intro p p' q x x' _ _ h; rw [slot_emptyTab] at h; simp at h
  · simp only [slot_emptyTab]; simp [emptyTab]
  · intro h q x hh; exact absurd hh (hno h q x)
  · intro k x
    constructor
    · intro h; simp at h
    · rintro ⟨h, q, hh, _⟩; exact absurd hh (hno h q x)

/-! ## Growing -/

theorem mem_entries {e : Nat} : ∀ (k x : Nat) (a b : Nat), (a, b) ∈ entries t home e k x ↔
    ∃ y, x ≤ y ∧ y < x + k ∧ (slot t (lin t.cap e y)).isSome = true ∧ b = lin t.cap e y ∧ a = home b
  | 0, x, a, b => by simp only [entries, List.not_mem_nil, false_iff]; rintro ⟨y, h1, h2, _⟩; omega
  | k + 1, x, a, b => by
    rw [entries]
    by_cases ho : (slot t (lin t.cap e x)).isSome = true
    · rw [if_pos ho, List.mem_cons, mem_entries k (x + 1) a b]
      constructor
      · rintro (h | ⟨y, h1, h2, h3⟩)
        · simp only [Prod.mk.injEq] at h
          exact ⟨x, by omega, by omega, ho, h.2, by rw [h.1, h.2]⟩
        · exact ⟨y, by omega, by omega, h3⟩
      · rintro ⟨y, h1, h2, h3, h4, h5⟩
        by_cases hy : y = x
        · subst hy; left; rw [h5, h4]
        · right; exact ⟨y, by omega, by omega, h3, h4, h5⟩
    · rw [if_neg ho, mem_entries k (x + 1) a b]
      constructor
      · rintro ⟨y, h1, h2, h3⟩; exact ⟨y, by omega, by omega, h3⟩
      · rintro ⟨y, h1, h2, h3, h4⟩
        refine ⟨y, ?_, by omega, h3, h4⟩
        by_contra hc
        obtain rfl : y = x := by omega
        exact ho h3

theorem entries_nodup {e : Nat} (he : e < t.cap) : ∀ (k x : Nat), x + k ≤ t.cap →
    ((entries t home e k x).map Prod.snd).Nodup
  | 0, x, _ => by simp [entries]
  | k + 1, x, hx => by
    rw [entries]
    split
    · rw [List.map_cons, List.nodup_cons]
      refine ⟨?_, entries_nodup he k (x + 1) (by omega)⟩
      rw [List.mem_map]
      rintro ⟨⟨a, b⟩, h1, h2⟩
      obtain ⟨y, y1, y2, y3, y4, y5⟩ := (mem_entries k (x + 1) a b).mp h1
      simp only at h2
      have := lin_inj he (by omega) (by omega) (y4.symm.trans h2)
      omega
    · exact entries_nodup he k (x + 1) (by omega)

theorem Inv.entries_length (I : Inv t home) {e : Nat} (he : e < t.cap) :
    (entries t home e t.cap 0).length = t.size := by
  rw [← I.card, ← List.length_map (f := Prod.snd) (as := entries t home e t.cap 0)]
  rw [← List.toFinset_card_of_nodup (entries_nodup he t.cap 0 (by omega))]
  congr 1
  ext p
  rw [List.mem_toFinset, List.mem_map, Finset.mem_filter, Finset.mem_range]
  constructor
  · rintro ⟨⟨a, b⟩, h1, h2⟩
    obtain ⟨y, y1, y2, y3, y4, y5⟩ := (mem_entries t.cap 0 a b).mp h1
    simp only at h2
    rw [← h2, y4]
    exact ⟨lin_lt _ (cap_pos t), y3⟩
  · rintro ⟨h1, h2⟩
    refine ⟨(home p, p), (mem_entries t.cap 0 _ _).mpr ⟨rel t.cap e p, by omega, ?_, ?_, ?_, rfl⟩, rfl⟩
    · have := rel_lt (cap := t.cap) (e := e) p (cap_pos t); omega
    · rw [lin_rel he h1]; exact h2
    · rw [lin_rel he h1]

theorem growLoop_spec {M : Nat → Option Nat} (R : RepH t home M) :
    ∀ (l : List (Nat × Nat)) (new : Tab) (N : Nat → Option Nat),
    (∃ h, RepH new h N) → new.size + l.length < new.cap / 2 → t.width ≤ new.width →
    (l.map Prod.snd).Nodup → (∀ a b, (a, b) ∈ l → b < t.cap ∧ (slot t b).isSome = true ∧ a = home b) →
    (∀ a b q x, (a, b) ∈ l → slot t b = some (q, x) → N (t.compose a q) = none) →
    growLoop t l new = .error .ub ∨
    ∃ new' N', growLoop t l new = .ok new' ∧ (∃ h, RepH new' h N') ∧ new'.size = new.size + l.length ∧
      new'.log = new.log ∧ new'.width = new.width ∧
      (∀ k x, N' k = some x ↔ N k = some x ∨ ∃ a b q, (a, b) ∈ l ∧ slot t b = some (q, x) ∧ t.compose a q = k)
  | [], new, N, hN, _, _, _, _, _ => by
    refine Or.inr ⟨new, N, rfl, hN, by simp, rfl, rfl, fun k x => by simp⟩
  | (a, b) :: l, new, N, ⟨hm, hN⟩, hsz, hw, hnd, hmem, hdis => by
    obtain ⟨hb, hs, ha⟩ := hmem a b (by simp)
    obtain ⟨⟨q, x⟩, hqx⟩ := Option.isSome_iff_exists.mp hs
    have hlen : (((a, b) :: l).length) = l.length + 1 := rfl
    have hnd' := hnd
    rw [List.map_cons, List.nodup_cons] at hnd'
    have hHas : Has t home a q x := ⟨b, hb, hqx, ha.symm⟩
    have hk : t.compose a q < 2 ^ t.width := (R.2.1 a q x hHas).2
    have hstart : growLoop t ((a, b) :: l) new =
        (CSH.insertCore new (t.compose a q) x).bind fun r => growLoop t l r.1 := by
      rw [growLoop, spos_ok R.1.sz.wf (R.1.sz.bkt hb), bind_ok]
      have e1 : ∀ p, (p / 64, (loc t p).2) = loc t p := fun p => rfl
      simp only [e1]
      rw [hget_loc R.1.sz.wf hqx, bind_ok]
      rw [if_neg]
      simp only [needsRealloc, needsCap, ne_eq, not_true_eq_false, decide_false, Bool.or_false, decide_eq_true_eq]
      omega
    have hnone : N (t.compose a q) = none := hdis a b q x (by simp) hqx
    rcases hN.insertCore (t.compose a q) x (lt_of_lt_of_le hk (Nat.pow_le_pow_right (by decide) hw)) (by omega) with
      ⟨x', hd, h1, _⟩ | ⟨_, ⟨h1, _⟩ | ⟨t', hd, home', h1, h2, h3, h4, h5, _⟩⟩
    · rw [hnone] at h1; simp at h1
    · left; rw [hstart, h1, bind_error]
    · rw [h1, bind_ok] at hstart
      have hcap : t'.cap = new.cap := by simp only [Tab.cap, h4]
      rcases growLoop_spec R l t' _ ⟨home', h2⟩ (by rw [h3, hcap]; omega) (by rw [h5]; exact hw) hnd'.2
        (fun a b h => hmem a b (List.mem_cons_of_mem _ h)) (by
          intro a' b' q' x' hm' hs'
          rw [upd, if_neg]
          · exact hdis a' b' q' x' (List.mem_cons_of_mem _ hm') hs'
          · intro heq
            obtain ⟨hb', _, ha'⟩ := hmem a' b' (List.mem_cons_of_mem _ hm')
            have hHas' : Has t home a' q' x' := ⟨b', hb', hs', ha'.symm⟩
            have e1 := decompose_compose t (hHas.lt R.1) (R.2.1 _ _ _ hHas).1
            have e2 := decompose_compose t (hHas'.lt R.1) (R.2.1 _ _ _ hHas').1
            rw [heq, e1] at e2
            simp only [Prod.mk.injEq] at e2
            have := R.1.inj b b' q x x' hb hb' hqx (by rw [hs', e2.2]) (by rw [← ha, ← ha', e2.1])
            exact hnd'.1 (by rw [this]; exact List.mem_map.mpr ⟨(a', b'), hm', rfl⟩)) with
        h | ⟨n', N', k1, k2, k3, k4, k5, k6⟩
      · left; rw [hstart]; exact h
      · right
        refine ⟨n', N', by rw [hstart]; exact k1, k2, by rw [k3, h3]; omega, by rw [k4, h4], by rw [k5, h5], fun k y => ?_⟩
        rw [k6, upd]
        constructor
        · rintro (h | ⟨a', b', q', m1, m2, m3⟩)
          · by_cases hkk : k = t.compose a q
            · rw [if_pos hkk] at h
              simp only [Option.some.injEq] at h
              exact Or.inr ⟨a, b, q, by simp, by rw [hqx, h], hkk.symm⟩
            · rw [if_neg hkk] at h; exact Or.inl h
          · exact Or.inr ⟨a', b', q', List.mem_cons_of_mem _ m1, m2, m3⟩
        · rintro (h | ⟨a', b', q', m1, m2, m3⟩)
          · left
            rw [if_neg]
            · exact h
            · rintro rfl; rw [hnone] at h; simp at h
          · rcases List.mem_cons.mp m1 with m1 | m1
            · simp only [Prod.mk.injEq] at m1
              rw [m1.2, hqx] at m2
              simp only [Option.some.injEq, Prod.mk.injEq] at m2
              left
              rw [if_pos (by rw [← m3, m1.1, m2.1]), m2.2]
            · exact Or.inr ⟨a', b', q', m1, m2, m3⟩

/-- the capacity after growing -/
def growLog (t : Tab) : Nat := if needsCap t then t.log + 1 else t.log

/-- **`grow_if_needed`**: the table holds the same map as before and has room for one more entry. -/
theorem Rep.grow {M : Nat → Option Nat} (R : Rep t M) {w : Nat} (hw : t.width ≤ w) (hlog : 1 ≤ t.log)
    (hbig : growLog t ≤ 17) :
    grow t w = .error .ub ∨
    ∃ t', grow t w = .ok t' ∧ (∃ h, RepH t' h M) ∧ t'.size = t.size ∧ t'.log = growLog t ∧ t'.width = w ∧
      t'.size + 1 < t'.cap / 2 := by
  obtain ⟨⟨home, RH⟩, hsz⟩ := R
  have hcap2 : t.cap = 2 * 2 ^ (t.log - 1) := by
    rw [Tab.cap, ← Nat.pow_succ']; congr 1; omega
  have hroom : t.size + 1 < 2 ^ growLog t / 2 := by
    rw [growLog]
    by_cases hn : needsCap t = true
    · rw [if_pos hn, Nat.pow_succ, Nat.mul_div_cancel _ (by decide)]
      change t.size + 1 < t.cap
      have hp : 0 < 2 ^ (t.log - 1) := Nat.pow_pos (by decide)
      omega
    · rw [if_neg hn]
      simp only [needsCap, decide_eq_true_eq] at hn
      rw [Tab.cap] at hn
      omega
  by_cases hn : needsRealloc t w = true
  · have hnew : newTab (if needsCap t then t.cap * 2 else t.cap) w = .ok (emptyTab (growLog t) w) := by
      rw [growLog]
      by_cases hc : needsCap t = true
      · rw [if_pos hc, if_pos hc, Tab.cap, ← Nat.pow_succ]; exact newTab_pow (by omega) w
      · rw [if_neg hc, if_neg hc, Tab.cap]; exact newTab_pow hlog w
    obtain ⟨e, he, hen⟩ := RH.1.exists_empty (by omega)
    obtain ⟨s, s1, s2, s3⟩ := firstEmpty_spec RH.1.sz he hen e (t.cap + 1) 0 (by omega) (by omega)
    have hs : s < t.cap := by omega
    have hit := (RH.1.iterAll hs s2 t.cap 0 (by omega) (cap_pos t)).1 (2 * t.cap + 2) 0 (by omega) (Or.inl rfl)
    have hgs : CSH.grow t w = growLoop t (entries t home s t.cap 0) (emptyTab (growLog t) w) := by
      rw [CSH.grow, if_pos hn, hnew, bind_ok, s3, bind_ok]
      have : t.next s = lin t.cap s 0 := by rw [Tab.next, lin, Nat.add_zero]
      rw [this, hit, bind_ok]
    have hlen := RH.1.entries_length hs
    have hcap' : (emptyTab (growLog t) w).cap = 2 ^ growLog t := rfl
    rcases growLoop_spec RH (entries t home s t.cap 0) (emptyTab (growLog t) w) _ ⟨_, repH_emptyTab hbig w⟩
      (by rw [hlen, hcap']; simp only [emptyTab]; omega) hw (entries_nodup hs t.cap 0 (by omega))
      (fun a b h => by
        obtain ⟨y, y1, y2, y3, y4, y5⟩ := (mem_entries t.cap 0 a b).mp h
        rw [y5, y4]
        exact ⟨lin_lt _ (cap_pos t), y3, rfl⟩)
      (fun _ _ _ _ _ _ => rfl) with h | ⟨t', N', k1, ⟨h', k2⟩, k3, k4, k5, k6⟩
    · left; rw [hgs]; exact h
    · right
      have hN : N' = M := by
        funext k
        apply Option.ext
        intro x
        rw [k6, RH.2.2]
        constructor
        · rintro (h | ⟨a, b, q, m1, m2, m3⟩)
          · simp at h
          · obtain ⟨y, y1, y2, y3, y4, y5⟩ := (mem_entries t.cap 0 a b).mp m1
            exact ⟨a, q, ⟨b, by rw [y4]; exact lin_lt _ (cap_pos t), m2, y5.symm⟩, m3⟩
        · rintro ⟨h, q, ⟨p, p1, p2, p3⟩, hc⟩
          refine Or.inr ⟨h, p, q, (mem_entries t.cap 0 _ _).mpr ⟨rel t.cap s p, by omega, ?_, ?_, ?_, p3.symm⟩, p2, hc⟩
          · have := rel_lt (cap := t.cap) (e := s) p (cap_pos t); omega
          · rw [lin_rel hs p1, p2]; rfl
          · rw [lin_rel hs p1]
      have hs' : t'.size = t.size := by rw [k3, hlen]; simp [emptyTab]
      refine ⟨t', by rw [hgs]; exact k1, ⟨h', hN ▸ k2⟩, hs', k4, k5, ?_⟩
      rw [hs', Tab.cap, k4]; exact hroom
  · right
    have hn' : ¬ (needsCap t = true) ∧ w = t.width := by
      simp only [needsRealloc, Bool.or_eq_true, decide_eq_true_eq, not_or, not_not] at hn
      exact ⟨hn.1, hn.2⟩
    refine ⟨t, by rw [CSH.grow, if_neg hn], ⟨home, RH⟩, rfl, by rw [growLog, if_neg hn'.1], hn'.2.symm, ?_⟩
    rw [growLog, if_neg hn'.1] at hroom
    exact hroom

/-! ## The interface -/

/-- **`index`** -/
theorem Rep.index {M : Nat → Option Nat} (R : Rep t M) {key w : Nat} (hk : key < 2 ^ w) (hw : t.width ≤ w)
    (hlog : 1 ≤ t.log) (hbig : growLog t ≤ 17) :
    index t key w = .error .ub ∨
    ∃ t' hd, index t key w = .ok (t', hd) ∧ t'.log = growLog t ∧ t'.width = w ∧
      ((∃ x, M key = some x ∧ Rep t' M ∧ t'.size = t.size ∧ RefTo t' M key hd) ∨
       (M key = none ∧ Rep t' (upd M key 0) ∧ t'.size = t.size + 1 ∧ (7 ≤ t'.log → RefTo t' (upd M key 0) key hd))) := by
  rcases R.grow hw hlog hbig with h | ⟨t1, h1, ⟨h, RH⟩, h2, h3, h4, h5⟩
  · left; rw [CSH.index, h, bind_error]
  · have hstart : CSH.index t key w = (CSH.insertCore t1 key 0).bind fun r => .ok (r.1, r.2.1) := by
      rw [CSH.index, h1, bind_ok]
    rcases RH.insertCore key 0 (by rw [h4]; exact hk) h5 with
      ⟨x, hd, k1, k2, k3⟩ | ⟨k0, ⟨k1, _⟩ | ⟨t', hd, home', k1, k2, k3, k4, k5, k6⟩⟩
    · right
      rw [k2, bind_ok] at hstart
      exact ⟨t1, hd, hstart, h3, h4, Or.inl ⟨x, k1, ⟨⟨h, RH⟩, by omega⟩, h2, k3⟩⟩
    · left; rw [hstart, k1, bind_error]
    · right
      rw [k1, bind_ok] at hstart
      have hcap : t'.cap = t1.cap := by simp only [Tab.cap, k4]
      exact ⟨t', hd, hstart, by rw [k4, h3], by rw [k5, h4], Or.inr ⟨k0, ⟨⟨home', k2⟩, by rw [k3, hcap]; exact h5⟩,
        by rw [k3, h2], fun hl => k6 (by rw [← k4]; exact hl)⟩⟩

/-- **`insert`**: an existing key keeps its old value. -/
theorem Rep.insert {M : Nat → Option Nat} (R : Rep t M) {key w : Nat} (val : Nat) (hk : key < 2 ^ w) (hw : t.width ≤ w)
    (hlog : 1 ≤ t.log) (hbig : growLog t ≤ 17) :
    insert t key val w = .error .ub ∨
    ∃ t', insert t key val w = .ok t' ∧ t'.log = growLog t ∧ t'.width = w ∧
      ((∃ x, M key = some x ∧ Rep t' M ∧ t'.size = t.size) ∨
       (M key = none ∧ Rep t' (upd M key val) ∧ t'.size = t.size + 1)) := by
  rcases R.grow hw hlog hbig with h | ⟨t1, h1, ⟨h, RH⟩, h2, h3, h4, h5⟩
  · left; rw [CSH.insert, h, bind_error]
  · have hstart : CSH.insert t key val w = (CSH.insertCore t1 key val).bind fun r => .ok r.1 := by
      rw [CSH.insert, h1, bind_ok]
    rcases RH.insertCore key val (by rw [h4]; exact hk) h5 with
      ⟨x, hd, k1, k2, k3⟩ | ⟨k0, ⟨k1, _⟩ | ⟨t', hd, home', k1, k2, k3, k4, k5, k6⟩⟩
    · right
      rw [k2, bind_ok] at hstart
      exact ⟨t1, hstart, h3, h4, Or.inl ⟨x, k1, ⟨⟨h, RH⟩, by omega⟩, h2⟩⟩
    · left; rw [hstart, k1, bind_error]
    · right
      rw [k1, bind_ok] at hstart
      have hcap : t'.cap = t1.cap := by simp only [Tab.cap, k4]
      exact ⟨t', hstart, by rw [k4, h3], by rw [k5, h4], Or.inr ⟨k0, ⟨⟨home', k2⟩, by rw [k3, hcap]; exact h5⟩,
        by rw [k3, h2]⟩⟩

/-- **`search`** -/
theorem Rep.search {M : Nat → Option Nat} (R : Rep t M) {key : Nat} (hk : key < 2 ^ t.width) :
    search t key = .ok (M key) := by
  obtain ⟨⟨home, RH⟩, hsz⟩ := R
  have I := RH.1
  have hia := decompose_lt t key
  obtain ⟨e, he, hen⟩ := I.exists_empty (by omega)
  have L := I.linv e he hen
  rw [CSH.search]
  simp only
  rw [vget_V I.sz hia, bind_ok]
  by_cases hv : t.V (t.decompose key).1 = true
  · have hio : (slot t (t.decompose key).1).isSome = true := by
      obtain ⟨y, y1, y2, y3⟩ := (L.v_iff (rel t.cap e (t.decompose key).1) (rel_lt _ (cap_pos t))).mp
        (by rw [lin_rel he hia]; exact hv)
      have h1 := L.le y y1 y2
      have := L.full y y1 y2 (rel t.cap e (t.decompose key).1) (by omega) (by omega)
      rw [lin_rel he hia] at this; exact this
    obtain ⟨s, n, z, F, hsg⟩ := I.search_at he hen hia hio
    obtain ⟨hsn, hgrp⟩ := F.grp hv
    rw [setV_self I.sz hia hv] at hsg
    rw [hv]
    simp only [if_true]
    rw [hsg, bind_ok]
    simp only
    have hzc := F.zc
    have hnz := F.nz
    rcases searchIn_spec I.sz he (t.decompose key).2 n (by omega) (n - s) (t.cap + 1) s (by omega) (by omega)
      (fun y h1 h2 => ((hgrp y (by omega)).mpr ⟨h1, h2⟩).1) with ⟨y, x, y1, y2, y3, y4⟩ | ⟨y1, y2⟩
    · rw [y4, bind_ok]
      simp only
      rw [hget_loc I.sz.wf y3, bind_ok]
      have hkey := (RH.key hk (lin_lt _ (cap_pos t)) y3).mpr ⟨((hgrp y (by omega)).mpr ⟨y1, y2⟩).2, rfl⟩
      rw [(RH.2.2 key x).mpr ⟨_, _, ⟨_, lin_lt _ (cap_pos t), y3, rfl⟩, hkey⟩]
    · rw [y2, bind_ok]
      simp only
      by_contra hc
      obtain ⟨x, hx⟩ := Option.ne_none_iff_exists'.mp (fun (h : M key = none) => hc (by rw [h]))
      obtain ⟨h, q, ⟨p, p1, p2, p3⟩, hc⟩ := (RH.2.2 key x).mp hx
      rw [← p3] at hc
      obtain ⟨e1, e2⟩ := (RH.key hk p1 p2).mp hc
      obtain ⟨y, hy, rfl⟩ : ∃ x < t.cap, p = lin t.cap e x := ⟨rel t.cap e p, rel_lt _ (cap_pos t), (lin_rel he p1).symm⟩
      have := (hgrp y hy).mp ⟨by rw [p2]; rfl, e1⟩
      exact y1 y x this.1 this.2 (by rw [p2, e2])
  · rw [Bool.not_eq_true] at hv
    rw [hv]
    simp only [Bool.false_eq_true, if_false]
    by_contra hc
    obtain ⟨x, hx⟩ := Option.ne_none_iff_exists'.mp (fun (h : M key = none) => hc (by rw [h]))
    obtain ⟨h, q, ⟨p, p1, p2, p3⟩, hc⟩ := (RH.2.2 key x).mp hx
    rw [← p3] at hc
    obtain ⟨e1, e2⟩ := (RH.key hk p1 p2).mp hc
    obtain ⟨y, hy, rfl⟩ : ∃ x < t.cap, p = lin t.cap e x := ⟨rel t.cap e p, rel_lt _ (cap_pos t), (lin_rel he p1).symm⟩
    have := (L.v_iff (rel t.cap e (t.decompose key).1) (rel_lt _ (cap_pos t))).mpr ⟨y, hy, by rw [p2]; rfl, by rw [e1]⟩
    rw [lin_rel he hia, hv] at this
    simp at this

end Tdc.CSH
