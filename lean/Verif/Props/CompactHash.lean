import Verif.Lemmas.CompactHashRoots
import Verif.Props.LZ78
import Verif.Props.LZW

/-!
# C62: the compact sparse hash table is a map, and the LZ78/LZW tries built on it

util/compact_sparse_hash.hpp, compressors/lz78/CompactSparseHashTrie.hpp

Specification: histories of `index(key, width) = value`, `insert(key, value, width)` and `search(key)`, answered by a
partial function from keys to values.
-/

namespace Tdc.CSH

/-! ## Histories -/

/-- One call on the table. -/
inductive Op where
  /-- `index(key, width) = value` -/
  | index (key val w : Nat)
  /-- `insert(key, value, width)` -/
  | insert (key val w : Nat)
  /-- `search(key)` -/
  | search (key : Nat)
deriving DecidableEq, Repr

/-- The call executed by the program: new table and, for `search`, the answer. -/
def runOp (t : Tab) : Op → Res (Tab × Option Nat)
  | .index key val w => (index t key w).bind fun r => (hsetVal r.1 r.2 val).bind fun t => .ok (t, none)
  | .insert key val w => (insert t key val w).bind fun t => .ok (t, none)
  | .search key => (search t key).bind fun r => .ok (t, r)

/-- A history executed by the program: the answers and the final table. -/
def run : List Op → Tab → Res (List (Option Nat) × Tab)
  | [], t => .ok ([], t)
  | o :: os, t => (runOp t o).bind fun r => (run os r.1).bind fun q => .ok (r.2 :: q.1, q.2)

/-- The intended effect of a call on a map; `insert` is meant for new keys, here it keeps the value of an old key. -/
def specOp (M : Nat → Option Nat) : Op → (Nat → Option Nat) × Option Nat
  | .index key val _ => (fun k => if k = key then some val else M k, none)
  | .insert key val _ => (if M key = none then fun k => if k = key then some val else M k else M, none)
  | .search key => (M, M key)

/-- The intended answers and the final map. -/
def specRun : List Op → (Nat → Option Nat) → List (Option Nat) × (Nat → Option Nat)
  | [], M => ([], M)
  | o :: os, M => ((specOp M o).2 :: (specRun os (specOp M o).1).1, (specRun os (specOp M o).1).2)

/-- Key widths never shrink and every key fits into the current width. -/
def Valid : Nat → List Op → Prop
  | _, [] => True
  | w0, .index key _ w :: os => w0 ≤ w ∧ w ≤ 64 ∧ key < 2 ^ w ∧ Valid w os
  | w0, .insert key _ w :: os => w0 ≤ w ∧ w ≤ 64 ∧ key < 2 ^ w ∧ Valid w os
  | w0, .search key :: os => key < 2 ^ w0 ∧ Valid w0 os

/-- The history does not use references. -/
def NoIndex (ops : List Op) : Prop := ∀ key val w, Op.index key val w ∉ ops

theorem growLog_ge (t : Tab) : t.log ≤ growLog t := by rw [growLog]; split <;> omega

theorem growLog_le {t : Tab} (h1 : t.log ≤ 17) (h2 : t.size + 1 < 65536) : growLog t ≤ 17 := by
  rw [growLog]
  by_cases hn : needsCap t = true
  · rw [if_pos hn]
    by_contra hc
    have h17 : t.log = 17 := by omega
    simp only [needsCap, Tab.cap, h17, decide_eq_true_eq] at hn
    omega
  · rw [if_neg hn]; exact h1

theorem run_spec : ∀ (ops : List Op) (t : Tab) (M : Nat → Option Nat), Rep t M → 1 ≤ t.log →
    (7 ≤ t.log ∨ NoIndex ops) → Valid t.width ops → t.size + ops.length + 1 < 65536 →
    run ops t = .error .ub ∨
    ∃ t', run ops t = .ok ((specRun ops M).1, t') ∧ Rep t' (specRun ops M).2
  | [], t, M, R, _, _, _, _ => Or.inr ⟨t, rfl, R⟩
  | o :: os, t, M, R, hl, hi, hv, hs => by
    have hlen : (o :: os).length = os.length + 1 := rfl
    have hg := growLog_ge t
    -- it is enough to execute the first call
    suffices h : runOp t o = .error .ub ∨ ∃ t1, runOp t o = .ok (t1, (specOp M o).2) ∧ Rep t1 (specOp M o).1 ∧
        t.log ≤ t1.log ∧ Valid t1.width os ∧ t1.size ≤ t.size + 1 by
      rcases h with h | ⟨t1, h1, h2, h3, h4, h5⟩
      · left; rw [run, h, bind_error]
      · rcases run_spec os t1 _ h2 (by omega) (hi.imp (fun h => h.trans h3) (fun h key val w hm => h key val w (by simp [hm])))
          h4 (by omega) with k | ⟨t', k1, k2⟩
        · left; rw [run, h1, bind_ok, k, bind_error]
        · right; exact ⟨t', by rw [run, h1, bind_ok, k1, bind_ok]; rfl, k2⟩
    cases o with
    | search key =>
      obtain ⟨v1, v2⟩ := hv
      right
      exact ⟨t, by rw [runOp, R.search v1, bind_ok]; rfl, R, Nat.le_refl _, v2, by omega⟩
    | insert key val w =>
      obtain ⟨v1, _, v2, v3⟩ := hv
      rcases R.insert val v2 v1 hl (growLog_le R.small (by omega)) with h | ⟨t1, h1, h2, h3, h4⟩
      · left; rw [runOp, h, bind_error]
      · right
        refine ⟨t1, by rw [runOp, h1, bind_ok]; rfl, ?_, by omega, by rw [h3]; exact v3, ?_⟩
        · rcases h4 with ⟨x, m1, m2, _⟩ | ⟨m1, m2, _⟩
          · simp only [specOp, m1]; exact m2
          · simp only [specOp, m1, if_true]; exact m2
        · rcases h4 with ⟨x, _, _, m3⟩ | ⟨_, _, m3⟩ <;> omega
    | index key val w =>
      obtain ⟨v1, _, v2, v3⟩ := hv
      have h7 : 7 ≤ t.log := by
        rcases hi with h | h
        · exact h
        · exact absurd (by simp) (h key val w)
      rcases R.index v2 v1 hl (growLog_le R.small (by omega)) with h | ⟨t1, hd, h1, h2, h3, h4⟩
      · left; rw [runOp, h, bind_error]
      · right
        have key : ∃ N, RefTo t1 N key hd ∧ upd N key val = upd M key val ∧ t1.size ≤ t.size + 1 := by
          rcases h4 with ⟨x, m1, m2, m3, m4⟩ | ⟨m1, m2, m3, m4⟩
          · exact ⟨M, m4, rfl, by omega⟩
          · exact ⟨_, m4 (by omega), upd_upd _ _ _ _, by omega⟩
        obtain ⟨N, n1, n2, n3⟩ := key
        obtain ⟨_, _, _, _, _, _, hw⟩ := n1
        obtain ⟨t2, b1, b2, b3, b4, b5⟩ := hw val
        rw [n2] at b2
        refine ⟨t2, by rw [runOp, h1, bind_ok, b1, bind_ok]; rfl, b2, by omega, by rw [b4, h3]; exact v3, by omega⟩

/-- **C62 (table, partial).**  A table created with 2 to 2^17 positions answers every history of up to 65534 calls like a
map, except that it may run out of bounds; if references are written to (`index`), provided it has at least 128
positions.  Missing: the out-of-bounds access (`csh_crash`), smaller tables (`csh_stale_reference`), more than 2^17
positions (`csh_outgrown`). -/
theorem csh_history_partial (l w : Nat) (hl : 1 ≤ l) (hl17 : l ≤ 17) (ops : List Op) (hi : 7 ≤ l ∨ NoIndex ops)
    (hv : Valid w ops) (hn : ops.length + 1 < 65536) :
    ∃ t, newTab (2 ^ l) w = .ok t ∧
      (run ops t = .error .ub ∨ ∃ t', run ops t = .ok ((specRun ops fun _ => none).1, t')) := by
  refine ⟨emptyTab l w, newTab_pow hl w, ?_⟩
  have hp : 2 ^ 1 ≤ 2 ^ l := Nat.pow_le_pow_right (by decide) hl
  have R : Rep (emptyTab l w) fun _ => none := ⟨⟨_, repH_emptyTab hl17 w⟩, by
    change 0 < 2 ^ l / 2
    omega⟩
  rcases run_spec ops (emptyTab l w) _ R hl hi hv (by change 0 + _ + 1 < _; omega) with h | ⟨t', h, _⟩
  · exact Or.inl h
  · exact Or.inr ⟨t', h⟩

/-! ### Histories that cannot fail -/

theorem hashfn_zero (w : Nat) : hashfn 0 w = 0 := by simp [hashfn]

/-- With key 0 in the table its first position is in use, and nothing goes wrong at the end of the table. -/
theorem Rep.not_stuck {t : Tab} {M : Nat → Option Nat} (R : Rep t M) {x : Nat} (h : M 0 = some x) : ¬ Stuck t := by
  rintro ⟨_, h0⟩
  obtain ⟨⟨home, RH⟩, hsz⟩ := R
  obtain ⟨hh, q, ⟨p, p1, p2, p3⟩, hc⟩ := (RH.2.2 0 x).mp h
  rw [← p3] at hc
  obtain ⟨e1, e2⟩ := (RH.key (Nat.pow_pos (by decide)) p1 p2).mp hc
  have hd : (t.decompose 0).1 = 0 := by simp only [Tab.decompose, hashfn_zero, Nat.zero_mod]
  rw [hd] at e1
  have he : 0 < t.cap := cap_pos t
  have L := RH.1.linv 0 he h0
  obtain ⟨y, hy, rfl⟩ : ∃ x < t.cap, p = lin t.cap 0 x := ⟨rel t.cap 0 p, rel_lt _ (cap_pos t), (lin_rel he p1).symm⟩
  have h1 := L.le y hy (by rw [p2]; rfl)
  have h2 := L.full y hy (by rw [p2]; rfl) (rel t.cap 0 (home (lin t.cap 0 y))) (Nat.le_refl _) h1
  simp only [e1, lin_rel he he, h0] at h2
  simp at h2

/-- All calls use the key width `w`. -/
def SameWidth (w : Nat) (ops : List Op) : Prop :=
  ∀ o ∈ ops, match o with
    | .index key _ w' => w' = w ∧ key < 2 ^ w
    | .insert key _ w' => w' = w ∧ key < 2 ^ w
    | .search key => key < 2 ^ w

theorem grow_noop {t : Tab} (h : t.size + 1 < t.cap / 2) : grow t t.width = .ok t := by
  rw [grow, if_neg]
  simp only [needsRealloc, needsCap, ne_eq, not_true_eq_false, decide_false, Bool.or_false, decide_eq_true_eq]
  omega

theorem run_total : ∀ (ops : List Op) (t : Tab) (M : Nat → Option Nat), Rep t M → (M 0).isSome = true →
    (7 ≤ t.log ∨ NoIndex ops) → SameWidth t.width ops → t.size + ops.length + 1 < t.cap / 2 →
    ∃ t', run ops t = .ok ((specRun ops M).1, t')
  | [], t, M, R, _, _, _, _ => ⟨t, rfl⟩
  | o :: os, t, M, R, h0, hi, hv, hs => by
    have hlen : (o :: os).length = os.length + 1 := rfl
    obtain ⟨x0, hx0⟩ := Option.isSome_iff_exists.mp h0
    have hns := R.not_stuck hx0
    have ho := hv o (by simp)
    have hroom : t.size + 1 < t.cap / 2 := by omega
    suffices h : (∃ t1, runOp t o = .ok (t1, (specOp M o).2) ∧ Rep t1 (specOp M o).1 ∧ ((specOp M o).1 0).isSome = true ∧
        t1.log = t.log ∧ t1.width = t.width ∧ t1.size ≤ t.size + 1) by
      obtain ⟨t1, h1, h2, h3, h4, h5, h6⟩ := h
      obtain ⟨t', k⟩ := run_total os t1 _ h2 h3
        (by rw [h4]; exact hi.imp id (fun h key val w hm => h key val w (by simp [hm])))
        (by rw [h5]; exact fun o ho => hv o (by simp [ho])) (by rw [Tab.cap, h4]; change _ < t.cap / 2; omega)
      exact ⟨t', by rw [run, h1, bind_ok, k, bind_ok]; rfl⟩
    cases o with
    | search key =>
      exact ⟨t, by rw [runOp, R.search ho, bind_ok]; rfl, R, h0, rfl, rfl, by omega⟩
    | insert key val w =>
      simp only at ho
      obtain ⟨rfl, hk⟩ := ho
      obtain ⟨home, RH⟩ := R.1
      have hst : insert t key val t.width = (insertCore t key val).bind fun r => .ok r.1 := by
        rw [insert, grow_noop hroom, bind_ok]
      rcases RH.insertCore key val hk hroom with
        ⟨x, hd, k1, k2, k3⟩ | ⟨k0, ⟨_, k1⟩ | ⟨t', hd, home', k1, k2, k3, k4, k5, k6⟩⟩
      · rw [k2, bind_ok] at hst
        refine ⟨t, by rw [runOp, hst, bind_ok]; rfl, ?_, ?_, rfl, rfl, by omega⟩
        · simp only [specOp, k1]; exact R
        · simp only [specOp, k1]; exact h0
      · exact absurd k1 hns
      · rw [k1, bind_ok] at hst
        refine ⟨t', by rw [runOp, hst, bind_ok]; rfl, ?_, ?_, k4, k5, by omega⟩
        · simp only [specOp, k0, if_true]
          exact ⟨⟨home', k2⟩, by rw [k3, Tab.cap, k4]; exact hroom⟩
        · simp only [specOp, k0, if_true]
          split
          · rfl
          · exact h0
    | index key val w =>
      simp only at ho
      obtain ⟨rfl, hk⟩ := ho
      have h7 : 7 ≤ t.log := by
        rcases hi with h | h
        · exact h
        · exact absurd (by simp) (h key val t.width)
      obtain ⟨home, RH⟩ := R.1
      have hst : index t key t.width = (insertCore t key 0).bind fun r => .ok (r.1, r.2.1) := by
        rw [index, grow_noop hroom, bind_ok]
      have h0' : ((fun k => if k = key then some val else M k) 0).isSome = true := by
        simp only
        split
        · rfl
        · exact h0
      rcases RH.insertCore key 0 hk hroom with
        ⟨x, hd, k1, k2, k3⟩ | ⟨k0, ⟨_, k1⟩ | ⟨t', hd, home', k1, k2, k3, k4, k5, k6⟩⟩
      · rw [k2, bind_ok] at hst
        obtain ⟨_, _, _, _, _, _, hw⟩ := k3
        obtain ⟨t2, b1, b2, b3, b4, b5⟩ := hw val
        exact ⟨t2, by rw [runOp, hst, bind_ok, b1, bind_ok]; rfl, b2, h0', b5, b4, by omega⟩
      · exact absurd k1 hns
      · rw [k1, bind_ok] at hst
        obtain ⟨_, _, _, _, _, _, hw⟩ := k6 h7
        obtain ⟨t2, b1, b2, b3, b4, b5⟩ := hw val
        rw [upd_upd] at b2
        exact ⟨t2, by rw [runOp, hst, bind_ok, b1, bind_ok]; rfl, b2, h0', by rw [b5, k4], by rw [b4, k5], by omega⟩

/-- **C62 (reserved table, partial).**  A table into which key 0 was inserted first, with one key width for all calls and
at most half of its 128 to 2^17 positions needed, answers every history like a map, without a fault. -/
theorem csh_reserved_partial (l w x0 : Nat) (hl : 7 ≤ l) (hl17 : l ≤ 17) (ops : List Op) (hv : SameWidth w ops)
    (hn : ops.length + 2 < 2 ^ (l - 1)) :
    ∃ t t', newTab (2 ^ l) w = .ok t ∧
      run (.insert 0 x0 w :: ops) t = .ok ((specRun (.insert 0 x0 w :: ops) fun _ => none).1, t') := by
  have hp : 2 ^ l = 2 * 2 ^ (l - 1) := by rw [← Nat.pow_succ']; congr 1; omega
  have hcap : (emptyTab l w).cap = 2 ^ l := rfl
  have hsz : (emptyTab l w).size = 0 := rfl
  have RH := repH_emptyTab hl17 w
  have hst : insert (emptyTab l w) 0 x0 w = (insertCore (emptyTab l w) 0 x0).bind fun r => .ok r.1 := by
    have := grow_noop (t := emptyTab l w) (by rw [hcap, hsz]; omega)
    change grow (emptyTab l w) w = _ at this
    rw [insert, this, bind_ok]
  rcases RH.insertCore 0 x0 (Nat.pow_pos (by decide)) (by rw [hcap, hsz]; omega) with
    ⟨x, hd, k1, _⟩ | ⟨k0, ⟨_, k1, _⟩ | ⟨t1, hd, home', k1, k2, k3, k4, k5, k6⟩⟩
  · simp at k1
  · rw [slot_emptyTab] at k1; simp at k1
  · rw [k1, bind_ok] at hst
    have hcap1 : t1.cap = 2 ^ l := by rw [Tab.cap, k4]; rfl
    have hw1 : t1.width = w := k5
    obtain ⟨t', ht'⟩ := run_total ops t1 (upd (fun _ => none) 0 x0) ⟨⟨home', k2⟩, by rw [k3, hcap1, hsz]; omega⟩ rfl
      (Or.inl (by rw [k4]; exact hl)) (by rw [hw1]; exact hv) (by rw [k3, hcap1, hsz]; omega)
    refine ⟨emptyTab l w, t', newTab_pow (by omega) w, ?_⟩
    rw [run, runOp, hst, bind_ok, bind_ok, ht', bind_ok]
    rfl

/-- A history that meets the hypotheses. -/
example : SameWidth 9 [.index 300 1 9, .insert 45 2 9, .index 300 3 9, .search 300, .search 44] ∧
    (specRun [.index 300 1 9, .insert 45 2 9, .index 300 3 9, .search 300, .search 44] fun _ => none).1 =
      [none, none, none, some 3, none] := by
  refine ⟨?_, rfl⟩
  intro o ho
  simp only [List.mem_cons, List.not_mem_nil, or_false] at ho
  rcases ho with rfl | rfl | rfl | rfl | rfl <;> simp

/-! ### What goes wrong -/

/-- the history executed on a new table -/
def runNew (cap w : Nat) (ops : List Op) : Res (List (Option Nat)) :=
  (newTab cap w).bind fun t => (run ops t).bind fun r => .ok r.1

/-- **C62 (negation).**  Inserting three keys into a new table accesses the bucket array out of bounds: a group ends at the
last position, the next one is free, and `sparse_shift(0, 0)` computes position `0 - 1`. -/
theorem csh_crash : runNew 2 4 [.insert 6 1 4, .insert 7 2 4, .insert 14 3 4] = .error .ub := by decide +kernel

/-- **C62 (negation).**  In a table of 16 positions, writing to the reference returned by `index(14)` overwrites the value
of key 30: the location was computed before the elements were moved. -/
theorem csh_stale_reference :
    runNew 16 5 [.index 30 1 5, .index 23 2 5, .index 0 3 5, .index 14 4 5, .search 30, .search 14] =
      .ok [none, none, none, none, some 4, some 0] := by decide +kernel

/-- what should have come out -/
example : (specRun [.index 30 1 5, .index 23 2 5, .index 0 3 5, .index 14 4 5, .search 30, .search 14] fun _ => none).1 =
    [none, none, none, none, some 1, some 4] := rfl

/-- **C62 (negation).**  `insert` does not replace the value of an existing key. -/
theorem csh_insert_keeps_old : runNew 128 8 [.insert 77 1 8, .insert 77 2 8, .search 77] = .ok [none, none, some 1] := by
  decide +kernel

/-- **C62 (negation).**  A table of 2^18 or more positions has only 4032 buckets: inserting any key whose initial address
is 258048 or more accesses the bucket array out of bounds. -/
theorem csh_outgrown (l w key val : Nat) (hl : 18 ≤ l)
    (hk : 258048 ≤ ((emptyTab l w).decompose key).1) :
    ∃ t, newTab (2 ^ l) w = .ok t ∧ insert t key val w = .error .ub := by
  refine ⟨emptyTab l w, newTab_pow (by omega) w, ?_⟩
  have hcap : (emptyTab l w).cap = 2 ^ l := rfl
  have h18 : 2 ^ 18 ≤ 2 ^ l := Nat.pow_le_pow_right (by decide) hl
  have := grow_noop (t := emptyTab l w) (by rw [hcap]; change 0 + 1 < _; omega)
  change grow (emptyTab l w) w = _ at this
  rw [insert, this, bind_ok, insertCore]
  simp only
  rw [sexists, spos, vget_err]
  · rfl
  · have e : (emptyTab l w).buckets.length = 4032 := (List.length_replicate ..).trans nBuckets_eq
    rw [e]
    omega

/-- there are such keys -/
example : 258048 ≤ ((emptyTab 18 32).decompose 4294836223).1 := by decide +kernel

/-- **C62 (keys).**  Quotient and initial address determine the key, for every key that fits into the key width. -/
theorem csh_key_recovered (t : Tab) (key : Nat) (hk : key < 2 ^ t.width) :
    t.compose (t.decompose key).1 (t.decompose key).2 = key :=
  compose_decompose t (lt_of_lt_of_le hk (Nat.pow_le_pow_right (by decide) (width_le_realWidth t)))

/-! ## The tries -/

theorem lz78_start (b : Bool) (reserve : Nat) :
    (cshTrie b reserve).addRoot ((cshTrie b reserve).clear (cshTrie b reserve).empty) 0 = rootsC b (emptyC reserve) 1 := rfl

theorem lzw_start (b : Bool) (reserve : Nat) :
    lzwReset (cshTrie b reserve) (cshTrie b reserve).empty = rootsC b (emptyC reserve) 256 :=
  foldl_roots b (emptyC reserve) 256

theorem lzw_start_hash : lzwReset (hashTrie false) (hashTrie false).empty = rootKeys 256 := hash_roots 256 (Nat.le_refl _)

theorem start_rel {r : Nat} (hr : zeroOrPow2 r ≤ 2 ^ 17) {m : Nat} (hm : 0 < m) (hm2 : m ≤ 256) {s0 : CTrie}
    (h : rootsC true (emptyC r) m = .ok s0) :
    rootsC false (emptyC r) m = .ok s0 ∧ CRel s0 (rootKeys m) ∧ (rootKeys m)[0]? = some (0, 0) := by
  obtain ⟨h1, h2⟩ := roots_rel (fun s0 h => cRel_empty hr h) m hm2 s0 h
  refine ⟨h1, h2, ?_⟩
  simp only [rootKeys, List.getElem?_map]
  rw [List.getElem?_range hm]
  rfl

/-- **C62 (LZ78, partial).**  Let the compressor run with the compact trie, giving up whenever the table is about to grow
beyond 2^17 positions or hands out a reference that does not belong to the key.  If it gets through, the real program
(without these checks) produces the same bytes, and for a text without zero bytes they decompress to the text.
Missing: zero bytes (they are lost, as with `HashTrie`), and the runs that are given up (`lz78_csh_lossy`). -/
theorem lz78_csh_lossless_partial (n : CoderName) (text : List UInt8)
    (hlen : text.length + 1 < 2 ^ 32 - 1) (hzero : (0 : UInt8) ∉ text)
    (hlast : n = .bit ∨ n = .ascii ∨ ∀ ch, text.getLast? = some ch → ch.toNat < 128) {bytes : List UInt8}
    (h : lz78Compress (cshTrie true (2 * isqrt text.length)) n.coder 0 text = .ok bytes) :
    lz78Compress (cshTrie false (2 * isqrt text.length)) n.coder 0 text = .ok bytes ∧
      lz78Decompress n.coder bytes = .ok text := by
  have hP : ∀ c ∈ text, c ≠ 0 := fun c hc h0 => hzero (h0 ▸ hc)
  -- the initial states
  have hR1 : RHash text.length (rootsC true (emptyC (2 * isqrt text.length)) 1) (rootKeys 1) := by
    intro s0 hs
    exact (start_rel (reserve_small text.length) (by decide) (by decide) hs).2
  have hR2 : RSame text.length (rootsC true (emptyC (2 * isqrt text.length)) 1)
      (rootsC false (emptyC (2 * isqrt text.length)) 1) := by
    intro s0 hs
    obtain ⟨h1, h2, h3⟩ := start_rel (reserve_small text.length) (by decide) (by decide) hs
    exact ⟨h1, _, h2, h3⟩
  -- what a run consists of
  have unf : ∀ (T : TrieImpl) (s : T.σ), T.addRoot (T.clear T.empty) 0 = s → T.getRoot s 0 = (s, 0) →
      lz78Compress T n.coder 0 text = match lz78Loop T 0 text s 0 0 0 0 with
        | .error e => .error e
        | .ok es => match n.coder.encEmits es with
          | .error e => .error e
          | .ok bits => .ok (BitO.toBytes bits) := by
    intro T s h1 h2
    rw [lz78Compress]
    simp only [h1, h2]
    rfl
  rw [unf (cshTrie true _) _ (lz78_start true _) rfl] at h
  rw [unf (cshTrie false _) _ (lz78_start false _) rfl]
  obtain ⟨bytes', hb1, hb2⟩ := lz78_hash_lossless_partial false n text hlen hzero hlast
  rw [unf (hashTrie false) (rootKeys 1) rfl rfl] at hb1
  cases hl : lz78Loop (cshTrie true (2 * isqrt text.length)) 0 text (rootsC true (emptyC (2 * isqrt text.length)) 1) 0 0 0 0 with
  | error e => rw [hl] at h; simp at h
  | ok es =>
    rw [hl] at h
    have e1 := (lockHash (2 * isqrt text.length)).lz78Loop text _ _ 0 0 0 0 es hR1 hP (by decide) hl
    have e2 := (lockSame (2 * isqrt text.length)).lz78Loop text _ _ 0 0 0 0 es hR2 hP (by decide) hl
    rw [e1] at hb1
    rw [e2]
    refine ⟨h, ?_⟩
    simp only at h hb1
    rw [h] at hb1
    simp only [Except.ok.injEq] at hb1
    rw [hb1]; exact hb2

/-- **C62 (LZW, partial).**  With the compact trie LZW reproduces every text without zero bytes of less than 65280
characters, unless it accesses memory out of bounds.  Missing: zero bytes, longer texts, and the out-of-bounds access of
`csh_crash`. -/
theorem lzw_csh_lossless_partial (n : CoderName) (text : List UInt8) (hlen : text.length < 65280)
    (hzero : (0 : UInt8) ∉ text) {bytes : List UInt8}
    (h : lzwCompress (cshTrie false (isqrt text.length * 2 + 256)) n.coder 0 text = .ok bytes) :
    lzwDecompress n.coder 0 bytes = .ok text := by
  obtain ⟨s, hs, hlog⟩ := roots_ok text.length
  obtain ⟨h1, h2, h3⟩ := start_rel (by rcases reserve_lzw text.length with h | h <;> rw [h] <;> decide) (by decide) (Nat.le_refl _) hs
  have hlen256 : (rootKeys 256).length = 256 := by simp [rootKeys]
  obtain ⟨bytes', hb1, hb2⟩ := lzw_hash_lossless_partial false n text (by omega) hzero
  suffices bytes' = bytes by rw [← this]; exact hb2
  cases text with
  | nil =>
    rw [lzwCompress] at h hb1
    simp only [Except.ok.injEq] at h hb1
    rw [← h, ← hb1]
  | cons ch cs =>
    have hR : RBig cs.length (.ok s) (rootKeys 256) := by
      intro s0 hs0
      simp only [Except.ok.injEq] at hs0
      subst hs0
      exact ⟨h2, h3, hlog, by rw [hlen256]; simp only [List.length_cons] at hlen; omega⟩
    have unf : ∀ (T : TrieImpl) (s : T.σ), lzwReset T T.empty = s → T.getRoot s ch = (s, ch.toNat) →
        lzwCompress T n.coder 0 (ch :: cs) = match lzwLoop T 0 cs s ch.toNat 0 with
          | .error e => .error e
          | .ok es => .ok (BitO.toBytes (n.coder.encAll es)) := by
      intro T s h1 h2
      rw [lzwCompress]
      simp only [h1, h2]
      rfl
    rw [unf (cshTrie false _) (.ok s) ((lzw_start false _).trans h1) rfl] at h
    rw [unf (hashTrie false) (rootKeys 256) lzw_start_hash rfl] at hb1
    cases hl : lzwLoop (cshTrie false (isqrt (ch :: cs).length * 2 + 256)) 0 cs (.ok s) ch.toNat 0 with
    | error e => rw [hl] at h; simp at h
    | ok es =>
      rw [hl] at h
      have hc := ch.toNat_lt
      have e1 := (lockBig (isqrt (ch :: cs).length * 2 + 256)).lzwLoop cs _ _ _ 0 es hR
        (fun c hc h0 => hzero (by rw [← h0]; simp [hc])) (by omega) hl
      rw [e1] at hb1
      simp only [Except.ok.injEq] at h hb1
      rw [← h, ← hb1]

/-- **C62 (negation).**  LZ78 with the compact trie does not reproduce `~?>?`. -/
theorem lz78_csh_lossy :
    (match lz78Compress (cshTrie false (2 * isqrt 4)) bitCoder 0 [126, 63, 62, 63] with
      | .ok bytes => match lz78Decompress bitCoder bytes with
        | .ok text => decide (text ≠ [126, 63, 62, 63])
        | .error _ => false
      | .error _ => false) = true := by decide +kernel

/-- a text of 81 characters -/
def crashText : List UInt8 := [
    127, 126, 62, 127, 127, 62, 126, 126, 191, 126, 255, 126, 63, 191, 255, 127, 191, 126, 62, 62, 62, 127, 127,
    63, 63, 127, 255, 63, 126, 126, 62, 62, 127, 255, 255, 127, 255, 62, 63, 126, 127, 255, 255, 126, 191, 255,
    62, 127, 255, 127, 63, 126, 191, 191, 255, 127, 255, 255, 191, 255, 255, 63, 126, 63, 127, 63, 255, 63, 63,
    62, 127, 191, 62, 62, 126, 191, 63, 63, 63, 127, 63]

/-- **C62 (negation).**  LZ78 with the compact trie accesses memory out of bounds while compressing this text. -/
theorem lz78_csh_crash :
    (match lz78Compress (cshTrie false (2 * isqrt crashText.length)) bitCoder 0 crashText with
      | .ok _ => false
      | .error e => decide (e = .ub)) = true := by decide +kernel

/-- A run that gets through (the hypothesis of `lz78_csh_lossless_partial`). -/
example : (lz78Compress (cshTrie true (2 * isqrt 12)) bitCoder 0 [97, 98, 97, 98, 97, 97, 98, 97, 98, 98, 97, 99]).isOk = true := by
  decide +kernel

end Tdc.CSH
