import Verif.Model.EspHuffman
import Verif.Lemmas.HuffmanCanon
import Verif.Lemmas.EspWT
import Verif.Lemmas.EspD

/-!
# The Huffman coder of right-hand sides decodes what it encodes
-/

namespace Tdc
namespace Esp

open Huff

theorem dhMax_spec (l : List Nat) : ∀ x ∈ l, x ≤ dhMax l := (foldl_max_spec l 0).2.1

theorem dhMax_mem {l : List Nat} (h : l ≠ []) : dhMax l ∈ l := by
  obtain ⟨h1, h2, h3⟩ := foldl_max_spec l 0
  rcases h3 with h3 | h3
  · obtain ⟨x, hx⟩ := List.exists_mem_of_ne_nil l h
    have h4 := h2 x hx
    unfold dhMax
    have : x = 0 := by omega
    rw [h3]; rwa [this] at hx
  · exact h3

/-- The counts, as a function. -/
theorem counts_spec (l : List Nat) : ∃ counts, wtHist l (List.replicate (dhMax l + 1) 0) = .ok counts ∧ counts.length = dhMax l + 1 ∧
    ∀ p, look counts p = l.count p := by
  obtain ⟨h, e1, e2, e3⟩ := wtHist_ok l (List.replicate (dhMax l + 1) 0) [] (by
    intro x hx
    have := dhMax_spec l x hx
    simp; omega) (by
    intro p hp
    rw [List.length_replicate] at hp
    rw [List.getElem?_replicate, if_pos hp]; simp)
  rw [List.length_replicate] at e2 e3
  refine ⟨h, e1, e2, fun p => ?_⟩
  by_cases hp : p < dhMax l + 1
  · have := e3 p hp
    rw [look, List.getD_eq_getElem?_getD, this]
    simp only [List.nil_append, Option.getD_some, List.count]
    congr 1
  · rw [look, List.getD_eq_getElem?_getD, List.getElem?_eq_none (by omega)]
    symm
    rw [Option.getD_none, List.count_eq_zero]
    intro hm
    have := dhMax_spec l p hm
    omega

theorem mem_dhAlphabet {counts l : List Nat} (hl : counts.length = dhMax l + 1) (hc : ∀ p, look counts p = l.count p) (x : Nat) : x ∈ dhAlphabet counts ↔ x ∈ l := by
  unfold dhAlphabet
  rw [List.mem_filter, List.mem_range, hl, decide_eq_true_iff, hc]
  constructor
  · rintro ⟨_, h⟩
    exact List.count_pos_iff.1 (by omega)
  · intro h
    have := dhMax_spec l x h
    have := List.count_pos_iff.2 h
    omega

theorem dhAlphabet_nodup (counts : List Nat) : (dhAlphabet counts).Nodup := List.Nodup.filter _ List.nodup_range

/-- The counts of distinct values are no more than the length. -/
theorem sum_count_le : ∀ (alpha l : List Nat), alpha.Nodup → (alpha.map fun a => l.count a).sum ≤ l.length
  | [], l, _ => by simp
  | a :: alpha, l, h => by
    rw [List.nodup_cons] at h
    have ih := sum_count_le alpha (l.filter (fun x => decide (x ≠ a))) h.2
    have e1 : (alpha.map fun b => (l.filter (fun x => decide (x ≠ a))).count b) = alpha.map fun b => l.count b := by
      apply List.map_congr_left
      intro b hb
      apply List.count_filter
      have : b ≠ a := by rintro rfl; exact h.1 hb
      simpa using this
    have e2 : (l.filter (fun x => decide (x ≠ a))).length + l.count a = l.length := by
      rw [← List.countP_eq_length_filter, List.count]
      have h3 := List.length_eq_countP_add_countP (fun x => x == a) (l := l)
      rw [h3, Nat.add_comm]
      congr 1
      apply List.countP_congr
      intro x _
      simp
    rw [e1] at ih
    simp only [List.map_cons, List.sum_cons]
    omega

theorem prefixSums0_spec {lens : List Nat} {longest : Nat} (hne : lens ≠ []) (hs : lens.Pairwise (· ≤ ·)) (hb : ∀ l ∈ lens, 0 < l ∧ l ≤ longest) :
    ∃ r, dhPrefixSums lens longest = .ok r ∧ ∀ l ∈ lens, r[l - 1]? = some (lens.countP (· < l)) := by
  cases lens with
  | nil => exact absurd rfl hne
  | cons len lens =>
    rw [List.pairwise_cons] at hs
    obtain ⟨h0, hl⟩ := hb len (by simp)
    obtain ⟨r, h1, h2, h3, h4⟩ := prefixLoop_spec lens len 1 ((List.replicate longest 0).set (len - 1) 0) hs.2
      (fun l hl => ⟨hs.1 l hl, by have := hb l (by simp [hl]); simpa using this⟩)
    refine ⟨r, ?_, ?_⟩
    · rw [dhPrefixSums]
      rw [if_neg (by omega), Huff.vset_ok (by simp; omega)]
      exact h1
    · intro l hlm
      by_cases hll : l = len
      · subst hll
        rw [h4 (l - 1) (by omega), List.getElem?_set_self (by simp; omega), List.countP_eq_zero.2]
        intro a ha
        rcases List.mem_cons.1 ha with rfl | ha
        · simp
        · have := hs.1 a ha
          simpa using this
      · have hlm' : l ∈ lens := by simpa [hll] using hlm
        have := hs.1 l hlm'
        rw [h3 l hlm' (by omega), List.countP_cons_of_pos (by simp; omega)]
        congr 1; omega

theorem dhMap_spec : ∀ (cs : List Nat) (i : Nat) (m : List Nat), cs.Nodup → (∀ c ∈ cs, c < m.length) →
    ∃ m', dhMap cs i m = .ok m' ∧ (∀ e c, cs[e]? = some c → m'[c]? = some (i + e)) ∧ (∀ c, c ∉ cs → m'[c]? = m[c]?)
  | [], i, m, _, _ => ⟨m, rfl, by simp, fun _ _ => rfl⟩
  | c :: cs, i, m, hnd, hb => by
    rw [List.nodup_cons] at hnd
    have hc := hb c (by simp)
    obtain ⟨m', h1, h2, h3⟩ := dhMap_spec cs (i + 1) (m.set c i) hnd.2 (fun d hd => by rw [List.length_set]; exact hb d (by simp [hd]))
    refine ⟨m', by rw [dhMap, Huff.vset_ok hc]; exact h1, ?_, ?_⟩
    · intro e d hed
      cases e with
      | zero =>
        simp only [List.getElem?_cons_zero, Option.some.injEq] at hed
        subst hed
        rw [h3 c hnd.1, List.getElem?_set_self hc]; rfl
      | succ e =>
        simp only [List.getElem?_cons_succ] at hed
        rw [h2 e d hed]
        congr 1; omega
    · intro d hd
      simp only [List.mem_cons, not_or] at hd
      rw [h3 d hd.2, List.getElem?_set_ne (fun h => hd.1 h.symm)]

theorem dhTableDecode_spec {B real : Nat} (t : Table) (h : GoodTable B t) (hB : B < 2 ^ 64) (hreal : real < 2 ^ 64) (hc : ∀ c ∈ t.chars, c < real) (rest : List Bool) :
    dhTableDecode (dhTableEncode real t ++ rest) = .ok ((t.numl, t.chars), rest) := by
  have h64 := h.le64
  have hcl := h.chars_len
  have hsm := h.small
  rw [dhTableDecode, dhTableEncode]
  simp only [List.append_assoc]
  rw [rdCInt_writeCInt _ 7 _ (by omega) (by omega) hreal]
  simp only [Except.bind]
  rw [rdCInt_writeCInt _ 7 _ (by omega) (by omega) (by rw [h.longest]; omega)]
  simp only
  rw [h.longest, rdMany_spec (rdCInt 7) (fun x => writeCInt x 7) t.numl _ (by
    intro x hx r
    apply rdCInt_writeCInt _ 7 _ (by omega) (by omega)
    obtain ⟨i, hi⟩ := List.getElem?_of_mem hx
    rw [h.num i x hi]
    have := List.count_le_length (l := t.lens) (a := i + 1)
    omega)]
  simp only
  rw [rdCInt_writeCInt _ 7 _ (by omega) (by omega) (by omega)]
  simp only
  have hr1 : (real - 1 : Nat) < 2 ^ 64 := by omega
  rw [rdMany_spec (fun bs => .ok (rdInt 64 (bitsFor (real - 1)) bs)) (fun c => writeInt c (bitsFor (real - 1))) t.chars rest (by
    intro x hx r
    have h1 := hc x hx
    have h2 := ((bitsFor_exact (real - 1) _ hr1).1 (Nat.le_refl _)).2
    rw [rdInt_writeInt 64 x _ _ (by omega) (by omega)])]

theorem dh_table (std : StdLib) {l counts : List Nat} (hl : l.length < 2 ^ 44) (hlen : counts.length = dhMax l + 1) (hc : ∀ p, look counts p = l.count p)
    (h2 : ¬ (dhAlphabet counts).length ≤ 1) : ∃ t cl, dhTable std counts = .ok t ∧ GoodTable (2 ^ 44) t ∧ t.chars.Perm (dhAlphabet counts) ∧
      genDepths std ((dhAlphabet counts).map fun a => l.count a) = .ok cl ∧ (t.chars.zip t.lens).Perm ((dhAlphabet counts).zip cl) := by
  obtain ⟨alpha, ha⟩ : ∃ alpha, alpha = dhAlphabet counts := ⟨_, rfl⟩
  have hnd : alpha.Nodup := ha ▸ dhAlphabet_nodup counts
  have hm : ∀ x, x ∈ alpha ↔ x ∈ l := fun x => ha ▸ mem_dhAlphabet hlen hc x
  have hmap : alpha.map (look counts) = alpha.map fun a => l.count a := List.map_congr_left fun a _ => hc a
  have hpos : ∀ f ∈ alpha.map (look counts), 0 < f := by
    intro f hf
    obtain ⟨a, h, rfl⟩ := List.mem_map.1 hf
    rw [hc]
    exact List.count_pos_iff.2 ((hm a).1 h)
  have hsum : (alpha.map (look counts)).sum ≤ l.length := by rw [hmap]; exact sum_count_le alpha l hnd
  have hal : alpha.length ≤ l.length := (List.subperm_of_subset hnd fun x hx => (hm x).1 hx).length_le
  rw [← ha] at h2 ⊢
  obtain ⟨T, cl, hg, hlen, hleaves, -, hfib, hperm, hcpos, hatt, -, -⟩ :=
    genDepths_spec std (alpha.map (look counts)) (by rw [List.length_map]; omega) hpos (by omega)
  rw [List.length_map] at hlen
  obtain ⟨t, e1, e2, e3, e4⟩ := canonTable_spec std (cap := 2 ^ 64) (B := 2 ^ 44) (alpha := alpha) (by omega) (by omega) (by omega) (by omega) hlen hfib hperm hcpos hatt
  refine ⟨t, cl, ?_, e2, e3, by rw [← hmap]; exact hg, e4⟩
  unfold dhTable
  simp only
  rw [← ha, hg]
  exact e1

theorem dhEncodeAll_spec {B : Nat} (t : Table) (h : GoodTable B t) (hB : B < 2 ^ 64) (m ps : List Nat)
    (hps : ∀ l ∈ t.lens, ps[l - 1]? = some (t.lens.countP (· < l))) (hm : ∀ e c : Nat, t.chars[e]? = some c → m[c]? = some e) :
    ∀ l : List Nat, (∀ x ∈ l, x ∈ t.chars) → ∃ bits, dhEncodeAll t m l = .ok bits ∧
      ∀ rest, rdMany (dhDecodeOne (some (t.chars, ps, firstCodes t.numl))) l.length (bits ++ rest) = .ok (l, rest)
  | [], _ => ⟨[], rfl, fun _ => rfl⟩
  | v :: l, hv => by
    obtain ⟨bits, e1, e2⟩ := dhEncodeAll_spec t h hB m ps hps hm l (fun x hx => hv x (by simp [hx]))
    obtain ⟨e, he⟩ := List.getElem?_of_mem (hv v (by simp))
    obtain ⟨w, n, f1, f2, _, f3⟩ := codeword_spec t h hB ps e v he hps
    refine ⟨writeInt w n ++ bits, ?_, fun rest => ?_⟩
    · rw [dhEncodeAll, dhEncodeOne, vget_ok (hm e v he)]
      simp only [Except.bind, vget_ok f1, vget_ok f2, e1]
    · rw [List.length_cons, rdMany, List.append_assoc]
      simp only [dhDecodeOne]
      rw [f3]
      simp only
      rw [e2]

/-- the number of bits of a value's codeword -/
def cwLen (t : Table) (v : Nat) : Nat := t.lens.getD (t.chars.idxOf v) 0

theorem dhEncodeAll_length {B : Nat} (t : Table) (h : GoodTable B t) (hnd : t.chars.Nodup) (m : List Nat) (hm : ∀ e c : Nat, t.chars[e]? = some c → m[c]? = some e) :
    ∀ (l : List Nat) (bits : List Bool), (∀ x ∈ l, x ∈ t.chars) → dhEncodeAll t m l = .ok bits → bits.length = (l.map (cwLen t)).sum
  | [], bits, _, he => by cases he; rfl
  | v :: l, bits, hv, he => by
    have hidx : t.chars.idxOf v < t.chars.length := List.idxOf_lt_length_iff.2 (hv v (by simp))
    have h1 : t.chars[t.chars.idxOf v]? = some v := by rw [List.getElem?_eq_getElem hidx, List.getElem_idxOf]
    have hl : t.chars.idxOf v < t.lens.length := by rw [← h.chars_len]; exact hidx
    rw [dhEncodeAll, dhEncodeOne, vget_ok (hm _ _ h1)] at he
    simp only [Except.bind] at he
    rw [vget_ok (List.getElem?_eq_getElem hl)] at he
    cases hw : vget t.codewords (t.chars.idxOf v) with
    | error e => rw [hw] at he; cases he
    | ok w =>
      rw [hw] at he
      simp only at he
      cases hr : dhEncodeAll t m l with
      | error e => rw [hr] at he; cases he
      | ok r =>
        rw [hr] at he
        simp only [Except.ok.injEq] at he
        subst he
        rw [List.length_append, dhEncodeAll_length t h hnd m hm l r (fun x hx => hv x (by simp [hx])) hr, List.map_cons, List.sum_cons, writeInt_length]
        congr 1
        rw [cwLen, List.getD_eq_getElem?_getD, List.getElem?_eq_getElem hl]; rfl

theorem map_cwLen {B : Nat} (t : Table) (h : GoodTable B t) (hnd : t.chars.Nodup) : t.chars.map (cwLen t) = t.lens := by
  apply List.ext_getElem (by rw [List.length_map, h.chars_len])
  intro i h1 h2
  rw [List.length_map] at h1
  rw [List.getElem_map, cwLen, hnd.idxOf_getElem i h1, List.getD_eq_getElem?_getD, List.getElem?_eq_getElem h2]; rfl

/-- A sum over a list, by distinct values. -/
theorem sum_by_value (l alpha : List Nat) (hnd : alpha.Nodup) (hm : ∀ x, x ∈ alpha ↔ x ∈ l) (g : Nat → Nat) : (l.map g).sum = (alpha.map fun a => l.count a * g a).sum := by
  rw [Finset.sum_list_map_count, ← List.sum_toFinset _ hnd]
  have : l.toFinset = alpha.toFinset := by ext x; simp [hm]
  rw [this]
  rfl

theorem genDepths_optimal (std : StdLib) (freqs : List Nat) (h2 : 2 ≤ freqs.length) (hpos : ∀ f ∈ freqs, 0 < f) (hsum : freqs.sum < 2 ^ 64) :
    ∃ lens, genDepths std freqs = .ok lens ∧ lens.length = freqs.length ∧
      ∀ ws : List (List Bool), ws.length = freqs.length → PrefixFree ws →
        codeCost (freqs.zip lens) ≤ codeCost (freqs.zip (ws.map List.length)) := by
  obtain ⟨T, lens, hg, hlen, -, -, -, -, -, -, hz, hopt⟩ := genDepths_spec std freqs h2 hpos hsum
  refine ⟨lens, hg, hlen, fun ws hl hpf => ?_⟩
  obtain ⟨-, hmax, -⟩ := foldl_max_spec (ws.map List.length) 0
  have h1 := hopt (freqs.zip (ws.map List.length)) _ (by rw [List.map_fst_zip (by simp; omega)])
    (by
      rw [List.map_snd_zip (by simp; omega)]
      refine ⟨hmax, ?_⟩
      rw [List.map_map]
      exact kraft_of_prefix_free _ ws hpf fun w hw => hmax _ (List.mem_map_of_mem hw))
  have h3 := HT.cost_eq (fun i => freqs.getD (i - freqs.length) 0) 0 T
  have h4 := codeCost_perm hz
  rw [codeCost, codeCost, List.map_map] at h4
  rw [codeCost, h4]
  have h5 : ((T.leafDepths 0).map ((fun p : Nat × Nat => p.1 * p.2) ∘ fun p => (freqs.getD (p.1 - freqs.length) 0, p.2))).sum
      = T.cost fun i => freqs.getD (i - freqs.length) 0 := by
    rw [Nat.zero_mul, Nat.add_zero] at h3
    exact h3
  omega

/-- No prefix-free code is shorter. -/
theorem dh_payload_optimal (std : StdLib) {l cl alpha : List Nat} {t : Table} (hl : l.length < 2 ^ 44) (h2 : 2 ≤ alpha.length) (hnd : alpha.Nodup) (hm : ∀ x, x ∈ alpha ↔ x ∈ l)
    (hg : GoodTable (2 ^ 44) t) (ht : t.chars.Perm alpha) (hcl : genDepths std (alpha.map fun a => l.count a) = .ok cl) (hz : (t.chars.zip t.lens).Perm (alpha.zip cl))
    (cw : Nat → List Bool) (hcw : ∀ x ∈ l, ∀ y ∈ l, x ≠ y → ¬ cw x <+: cw y) : (l.map (cwLen t)).sum ≤ (l.flatMap cw).length := by
  have hnd' := ht.nodup_iff.2 hnd
  have hsum := sum_count_le alpha l hnd
  obtain ⟨lens, e1, e2, e3⟩ := genDepths_optimal std (alpha.map fun a => l.count a) (by simpa using h2) (by
    intro f hf
    obtain ⟨a, h, rfl⟩ := List.mem_map.1 hf
    exact List.count_pos_iff.2 ((hm a).1 h)) (by omega)
  rw [hcl] at e1
  simp only [Except.ok.injEq] at e1
  subst e1
  have hpf : PrefixFree (alpha.map cw) := by
    rw [PrefixFree, List.pairwise_map]
    refine hnd.imp_of_mem ?_
    intro a b ha hb hab
    exact ⟨hcw a ((hm a).1 ha) b ((hm b).1 hb) hab, hcw b ((hm b).1 hb) a ((hm a).1 ha) (fun h => hab h.symm)⟩
  have h1 := e3 (alpha.map cw) (by simp) hpf
  rw [List.map_map, List.zip_map'] at h1
  have e5 : (l.flatMap cw).length = (alpha.map fun a => l.count a * (cw a).length).sum := by
    rw [List.length_flatMap, sum_by_value l alpha hnd hm]
  have e6 : (l.map (cwLen t)).sum = codeCost ((alpha.map fun a => l.count a).zip cl) := by
    rw [sum_by_value l t.chars hnd' (fun x => ht.mem_iff.trans (hm x))]
    have h7 := (hz.map fun p : Nat × Nat => l.count p.1 * p.2).sum_eq
    have h8 : (t.chars.zip t.lens) = t.chars.map fun a => (a, cwLen t a) := by
      conv_lhs => rw [← map_cwLen t hg hnd']
      rw [← List.zip_map', List.map_id']
    rw [h8, List.map_map] at h7
    have h9 : (alpha.map fun a => l.count a).zip cl = (alpha.zip cl).map fun p => (l.count p.1, p.2) := by
      have := List.zip_map (f := fun a => l.count a) (g := id) (l₁ := alpha) (l₂ := cl)
      rw [List.map_id] at this
      rw [this]; rfl
    rw [codeCost, h9, List.map_map]
    exact h7
  rw [e5, e6]
  refine Nat.le_trans h1 (Nat.le_of_eq ?_)
  rw [codeCost, List.map_map]
  rfl

theorem dh_roundtrip (std : StdLib) (l : List Nat) (hl : l.length < 2 ^ 44) (hv : ∀ x ∈ l, x < 2 ^ 64 - 1) :
    ∃ bits, dhEnc std l = .ok bits ∧ (∀ rest, dhDec l.length (bits ++ rest) = .ok (l, rest)) ∧
      ((∃ x ∈ l, ∃ y ∈ l, x ≠ y) → ∃ st payload, dhDecoder bits = .ok (st, payload) ∧
        ∀ cw : Nat → List Bool, (∀ x ∈ l, ∀ y ∈ l, x ≠ y → ¬ cw x <+: cw y) → payload.length ≤ (l.flatMap cw).length) := by
  obtain ⟨counts, c1, c2, c3⟩ := counts_spec l
  unfold dhEnc
  simp only
  rw [c1]
  simp only [Except.bind]
  by_cases h2 : (dhAlphabet counts).length ≤ 1
  · rw [if_pos h2]
    refine ⟨_, rfl, fun rest => ?_, ?_⟩
    rotate_left
    · rintro ⟨x, hx, y, hy, hxy⟩
      have ha := (mem_dhAlphabet c2 c3 x).2 hx
      have hb := (mem_dhAlphabet c2 c3 y).2 hy
      match he : dhAlphabet counts with
      | [] => rw [he] at ha; simp at ha
      | [z] => rw [he] at ha hb; simp only [List.mem_singleton] at ha hb; omega
      | _ :: _ :: _ => rw [he] at h2; simp at h2
    simp only [dhDec, dhDecoder, List.cons_append, rdBit, if_true, Except.bind]
    exact rdMany_spec (dhDecodeOne none) (fun v => writeInt v 64) l rest (by
      intro x hx r
      have := hv x hx
      simp only [dhDecodeOne]
      rw [rdInt_writeInt 64 x 64 _ (by omega) (by omega)])
  · rw [if_neg h2]
    have hne : l ≠ [] := by
      rintro rfl
      apply h2
      have h0 : dhAlphabet counts = [] := List.eq_nil_iff_forall_not_mem.2 (fun x hx => by simpa using (mem_dhAlphabet c2 c3 x).1 hx)
      rw [h0]; simp
    have hmx := hv _ (dhMax_mem hne)
    obtain ⟨t, cl, t1, t2, t3, t4, t5⟩ := dh_table std hl c2 c3 h2
    have hmem : ∀ x, x ∈ t.chars ↔ x ∈ l := fun x => t3.mem_iff.trans (mem_dhAlphabet c2 c3 x)
    obtain ⟨m, m1, m2, _⟩ := dhMap_spec t.chars 0 (List.replicate (dhMax l + 1) (2 ^ 64 - 1)) (t3.nodup_iff.2 (dhAlphabet_nodup _)) (by
      intro c hc
      have := dhMax_spec l c ((hmem c).1 hc)
      simp; omega)
    have hlne : t.lens ≠ [] := by
      intro he
      have := t2.two
      rw [he] at this
      simp at this
    obtain ⟨ps, p1, p2⟩ := prefixSums0_spec hlne t2.sorted t2.bound
    obtain ⟨bits, e1, e2⟩ := dhEncodeAll_spec t t2 (by omega) m ps p2 (fun e c h => by simpa using m2 e c h) l (fun x hx => (hmem x).2 hx)
    rw [t1]
    simp only
    rw [m1]
    simp only
    rw [e1]
    have hdec : ∀ r, dhDecoder (true :: dhTableEncode (dhMax l + 1) t ++ r) = .ok (some (t.chars, ps, firstCodes t.numl), r) := by
      intro r
      simp only [dhDecoder, List.cons_append, rdBit, Bool.true_eq_false, if_false]
      rw [dhTableDecode_spec t t2 (by omega) (by omega) (fun c hc => by have := dhMax_spec l c ((hmem c).1 hc); omega)]
      simp only [Except.bind]
      rw [← t2.ordered, if_neg (by simp [t2.chars_len]), p1]
    refine ⟨_, rfl, fun rest => ?_, fun _ => ⟨_, _, hdec bits, fun cw hcw => ?_⟩⟩
    · rw [dhDec, List.append_assoc, hdec]
      exact e2 rest
    · rw [dhEncodeAll_length t t2 (t3.nodup_iff.2 (dhAlphabet_nodup _)) m (fun e c h => by simpa using m2 e c h) l bits (fun x hx => (hmem x).2 hx) e1]
      exact dh_payload_optimal std hl (by omega) (dhAlphabet_nodup _) (mem_dhAlphabet c2 c3) t2 t3 t4 t5 cw hcw

theorem dhuffman_sound (std : StdLib) {N : Nat} (hN : N ≤ 2 ^ 44) : (DHuffman std).Sound N := by
  intro w mx l bits rest h1 h2 h3 h4 _ he
  have hle : (2 : Nat) ^ w ≤ 2 ^ 62 := Nat.pow_le_pow_right (by omega) h3
  obtain ⟨b, e1, e2, _⟩ := dh_roundtrip std l (by omega) (fun x hx => by have := h1 x hx; omega)
  simp only [DHuffman] at he ⊢
  rw [e1] at he
  simp only [Except.ok.injEq] at he
  subst he
  exact e2 rest

theorem dhuffman_total (std : StdLib) {N : Nat} (hN : N ≤ 2 ^ 44) : (DHuffman std).Total N := by
  intro w mx l h1 h2 h3 h4 _
  have hle : (2 : Nat) ^ w ≤ 2 ^ 62 := Nat.pow_le_pow_right (by omega) h3
  obtain ⟨b, e1, _⟩ := dh_roundtrip std l (by omega) (fun x hx => by have := h1 x hx; omega)
  exact ⟨b, e1⟩

end Esp
end Tdc
