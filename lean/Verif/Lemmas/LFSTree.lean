import Verif.Spec.SuffixTree
import Verif.Lemmas.LFSRules

namespace Tdc
namespace Lfs

open Arith (bind_ok)

variable {T : List UInt8} {t : Tree} {label : Nat → List UInt8}

theorem prefix_sub {w : List UInt8} {p len : Nat} (h : w <+: T.drop p) (hl : len ≤ w.length) (h0 : 0 < len) :
    p + len ≤ T.length ∧ sub T p len = w.take len := by
  obtain ⟨r, hr⟩ := h
  have := congrArg List.length hr
  rw [List.length_append, List.length_drop] at this
  refine ⟨by omega, ?_⟩
  rw [sub, ← hr, List.take_append_of_le_length hl]

/-! ## positions -/

/-- all positions in the table are occurrences of the label of their node -/
def BgOk (T : List UInt8) (t : Tree) (label : Nat → List UInt8) (bg : Begins) : Prop :=
  bg.length = t.nodes.length ∧ ∀ v l, bg[v]? = some (some l) → ∀ p ∈ l, label v <+: T.drop p

theorem BgOk.set {bg : Begins} (h : BgOk T t label bg) {v : Nat} {o : Option (List Nat)} (ho : ∀ l, o = some l → ∀ p ∈ l, label v <+: T.drop p) :
    BgOk T t label (bg.set v o) := by
  refine ⟨by rw [List.length_set, h.1], fun u l hu => ?_⟩
  rw [List.getElem?_set] at hu
  split at hu
  · next e =>
    subst e
    split at hu
    · cases hu
      exact ho l rfl
    · cases hu
  · exact h.2 u l hu

theorem mem_merge {a b : List Nat} {p : Nat} : p ∈ merge a b ↔ p ∈ a ∨ p ∈ b := by
  unfold merge
  exact List.mem_merge

theorem mem_sortPos {l : List Nat} {p : Nat} : p ∈ sortPos l ↔ p ∈ l := List.mem_mergeSort

theorem fromKids_ok (hs : SoundTree T t label) {alive : Nat → Res Bool} (map : Bool) {w : List UInt8} (hal : ∀ p, w <+: T.drop p → ∃ b, alive p = .ok b) :
    ∀ (ks : List Kid) (acc lv : List Nat) (bg : Begins),
      (∀ p, Kid.leaf p ∈ ks → w <+: T.drop p) → (∀ c, Kid.node c ∈ ks → c < t.nodes.length ∧ w <+: label c) →
      (∀ p ∈ acc, w <+: T.drop p) → (∀ p ∈ lv, w <+: T.drop p) → BgOk T t label bg →
      ∃ acc' lv' bg', fromKids alive map ks acc lv bg = .ok (acc', lv', bg') ∧ (∀ p ∈ acc', w <+: T.drop p) ∧ (∀ p ∈ lv', w <+: T.drop p) ∧
        BgOk T t label bg'
  | [], acc, lv, bg, _, _, ha, hl, hb => ⟨acc, lv, bg, rfl, ha, hl, hb⟩
  | .leaf p :: ks, acc, lv, bg, h1, h2, ha, hl, hb => by
    have hp := h1 p (List.mem_cons_self ..)
    obtain ⟨b, e⟩ := hal p hp
    rw [fromKids, e, bind_ok]
    refine fromKids_ok hs map hal ks acc _ bg (fun q hq => h1 q (List.mem_cons_of_mem _ hq)) (fun c hc => h2 c (List.mem_cons_of_mem _ hc)) ha ?_ hb
    intro q hq
    split at hq
    · rcases List.mem_append.1 hq with hq | hq
      · exact hl q hq
      · rw [List.mem_singleton.1 hq]
        exact hp
    · exact hl q hq
  | .node c :: ks, acc, lv, bg, h1, h2, ha, hl, hb => by
    obtain ⟨hc, hw⟩ := h2 c (List.mem_cons_self ..)
    have h1' : ∀ p, Kid.leaf p ∈ ks → w <+: T.drop p := fun q hq => h1 q (List.mem_cons_of_mem _ hq)
    have h2' : ∀ d, Kid.node d ∈ ks → d < t.nodes.length ∧ w <+: label d := fun d hd => h2 d (List.mem_cons_of_mem _ hd)
    obtain ⟨e, he⟩ : ∃ e, bg[c]? = some e := ⟨_, List.getElem?_eq_getElem (by rw [hb.1]; exact hc)⟩
    rw [fromKids, vget_ok he, bind_ok]
    cases e with
    | none =>
      refine fromKids_ok hs map hal ks acc lv _ h1' h2' ha hl ?_
      split
      · exact hb.set fun l hl => by cases hl; simp
      · exact hb
    | some l =>
      cases l with
      | nil => exact fromKids_ok hs map hal ks acc lv bg h1' h2' ha hl hb
      | cons x l =>
        refine fromKids_ok hs map hal ks _ lv _ h1' h2' ?_ hl (hb.set fun l hl => by cases hl)
        intro p hp
        rcases mem_merge.1 hp with hp | hp
        · exact ha p hp
        · exact hw.trans (hb.2 c _ he p hp)

theorem gather_ok (hs : SoundTree T t label) {alive : Nat → Res Bool} (map : Bool) {v : Nat} (hv : v < t.nodes.length)
    (hal : ∀ p, label v <+: T.drop p → ∃ b, alive p = .ok b) {bg : Begins} (hb : BgOk T t label bg) :
    ∃ ps bg', gather alive map t v bg = .ok (ps, bg') ∧ (∀ p ∈ ps, label v <+: T.drop p) ∧ BgOk T t label bg' := by
  obtain ⟨nd, hn⟩ : ∃ nd, t.nodes[v]? = some nd := ⟨_, List.getElem?_eq_getElem hv⟩
  obtain ⟨e, he⟩ : ∃ e, bg[v]? = some e := ⟨_, List.getElem?_eq_getElem (by rw [hb.1]; exact hv)⟩
  rw [gather, vget_ok hn, bind_ok, vget_ok he, bind_ok]
  split
  · obtain ⟨acc, lv, bg', h1, h2, h3, h4⟩ := fromKids_ok hs map hal nd.kids [] [] bg (fun p hp => hs.leaf v nd p hn hp) (fun c hc => hs.node v nd c hn hc)
      (by simp) (by simp) hb
    rw [h1, bind_ok]
    have key : ∀ p ∈ merge acc (sortPos lv), label v <+: T.drop p := fun p hp => by
      rcases mem_merge.1 hp with hp | hp
      · exact h2 p hp
      · exact h3 p (mem_sortPos.1 hp)
    exact ⟨_, _, rfl, key, h4.set fun l hl => by cases hl; exact key⟩
  · refine ⟨_, bg, rfl, fun p hp => ?_, hb⟩
    cases e with
    | none => cases hp
    | some l => exact hb.2 v l he p hp

/-! ## selecting -/

theorem free_ok {dead : List Bool} {len next p : Nat} (h0 : 0 < len) (h : p + len ≤ dead.length) :
    ∃ b, free dead len next p = .ok b ∧ (b = true → next ≤ p ∧ dead[p]? = some false ∧ dead[p + len - 1]? = some false) := by
  have h1 : dead[p]? = some dead[p] := List.getElem?_eq_getElem (by omega)
  have h2 : dead[p + len - 1]? = some dead[p + len - 1] := List.getElem?_eq_getElem (by omega)
  unfold free
  split
  · next hn =>
    rw [vget_ok h1, bind_ok]
    split
    · exact ⟨false, rfl, by simp⟩
    · next ha =>
      rw [vget_ok h2, bind_ok]
      refine ⟨_, rfl, fun hb => ⟨hn, ?_, ?_⟩⟩
      · rw [h1]
        simpa using ha
      · rw [h2]
        simpa using hb
  · exact ⟨false, rfl, by simp⟩

theorem pick_ok (alive : Bool) {dead : List Bool} {len : Nat} (h0 : 0 < len) : ∀ (ps : List Nat) (next : Nat), (∀ p ∈ ps, p + len ≤ dead.length) →
    ∃ sel rest, pick alive dead len next ps = .ok (sel, rest) ∧ Sep len next sel ∧ (∀ p ∈ sel, p ∈ ps ∧ dead[p]? = some false ∧ dead[p + len - 1]? = some false) ∧
      ∀ p ∈ rest, p ∈ ps
  | [], _, _ => ⟨[], [], rfl, trivial, by simp, by simp⟩
  | p :: ps, next, h => by
    have hp := h p (List.mem_cons_self ..)
    have hr : ∀ q ∈ ps, q + len ≤ dead.length := fun q hq => h q (List.mem_cons_of_mem _ hq)
    obtain ⟨b, e1, e2⟩ := free_ok (next := next) h0 hp
    rw [pick, e1, bind_ok]
    split
    · next hb =>
      obtain ⟨sel, rest, g1, g2, g3, g4⟩ := pick_ok alive h0 ps (p + len) hr
      rw [g1, bind_ok]
      refine ⟨_, _, rfl, ⟨(e2 hb).1, g2⟩, fun q hq => ?_, fun q hq => List.mem_cons_of_mem _ (g4 q hq)⟩
      rcases List.mem_cons.1 hq with rfl | hq
      · exact ⟨List.mem_cons_self .., (e2 hb).2⟩
      · exact ⟨List.mem_cons_of_mem _ (g3 q hq).1, (g3 q hq).2⟩
    · obtain ⟨sel, rest, g1, g2, g3, g4⟩ := pick_ok alive h0 ps next hr
      have : ∃ a, (if alive = true then vget dead p else .ok false : Res Bool) = .ok a := by
        split
        · exact ⟨_, vget_ok (List.getElem?_eq_getElem (by omega))⟩
        · exact ⟨_, rfl⟩
      obtain ⟨a, e⟩ := this
      rw [e, bind_ok, g1, bind_ok]
      refine ⟨_, _, rfl, g2, fun q hq => ⟨List.mem_cons_of_mem _ (g3 q hq).1, (g3 q hq).2⟩, fun q hq => ?_⟩
      split at hq
      · exact List.mem_cons_of_mem _ (g4 q hq)
      · rcases List.mem_cons.1 hq with rfl | hq
        · exact List.mem_cons_self ..
        · exact List.mem_cons_of_mem _ (g4 q hq)

theorem runOn_ok (dead : List Bool) (p : Nat) : ∀ (fuel ms : Nat), 0 < fuel → dead.length < fuel + ms → ∃ m, runOn dead p fuel ms = .ok m
  | 0, ms, h0, h => absurd h0 (by omega)
  | fuel + 1, ms, h0, h => by
    rw [runOn]
    split
    · next hp =>
      rw [vget_ok (List.getElem?_eq_getElem hp), bind_ok]
      split
      · exact ⟨ms, rfl⟩
      · exact runOn_ok dead p fuel (ms + 1) (by omega) (by omega)
    · exact ⟨ms, rfl⟩

theorem minShorter_ok {dead : List Bool} {len : Nat} (h0 : 0 < len) : ∀ (ps : List Nat) (ms : Nat), (∀ p ∈ ps, p + len ≤ dead.length) →
    ∃ m, minShorter dead len ps ms = .ok m
  | [], ms, _ => ⟨ms, rfl⟩
  | p :: ps, ms, h => by
    have hp := h p (List.mem_cons_self ..)
    have ih := fun ms => minShorter_ok h0 ps ms fun q hq => h q (List.mem_cons_of_mem _ hq)
    rw [minShorter, if_pos (by omega), vget_ok (List.getElem?_eq_getElem (by omega)), bind_ok]
    split
    · exact ih ms
    · rw [vget_ok (List.getElem?_eq_getElem (by omega)), bind_ok]
      split
      · obtain ⟨m, e⟩ := runOn_ok dead p (dead.length + 1) ms (by omega) (by omega)
        rw [e, bind_ok]
        exact ih m
      · exact ih ms

/-! ## bins -/

/-- nodes wait in bins up to their depth; a node that has been put back is deeper than its bin and its parent is not -/
def BinOk (t : Tree) (bins : List (List Nat)) : Prop :=
  ∀ (j : Nat) (vs : List Nat), bins[j]? = some vs → ∀ v ∈ vs, ∃ nd, t.nodes[v]? = some nd ∧ j ≤ nd.depth ∧ (j = nd.depth ∨ nd.up < j)

theorem BinOk.push {bins : List (List Nat)} (h : BinOk t bins) {j v : Nat} {q : List Nat} {nd : Inner} (hq : bins[j]? = some q) (hn : t.nodes[v]? = some nd)
    (hj : j ≤ nd.depth) (hu : j = nd.depth ∨ nd.up < j) : BinOk t (bins.set j (q ++ [v])) := by
  intro k vs hk u hu'
  rw [List.getElem?_set] at hk
  split at hk
  · next e =>
    subst e
    split at hk
    · cases hk
      rcases List.mem_append.1 hu' with hm | hm
      · exact h j q hq u hm
      · rw [List.mem_singleton.1 hm]
        exact ⟨nd, hn, hj, hu⟩
    · cases hk
  · exact h k vs hk u hu'

theorem readd_ok {minLrf len v ms : Nat} {bins : List (List Nat)} (hb : BinOk t bins) {nd : Inner} (hn : t.nodes[v]? = some nd) (hd : len ≤ nd.depth)
    (hl : len < bins.length) :
    ∃ bins', readd minLrf t len v ms bins = .ok bins' ∧ BinOk t bins' ∧ bins'.length = bins.length ∧
      (∀ j, len ≤ j → bins'[j]? = bins[j]?) ∧ ∀ (j : Nat) (vs : List Nat), bins[j]? = some vs → ∃ vs', bins'[j]? = some vs' ∧ ∀ u ∈ vs, u ∈ vs' := by
  unfold readd
  split
  · next hc =>
    rw [vget_ok hn, bind_ok]
    split
    · next hu =>
      have hq : bins[ms]? = some bins[ms] := List.getElem?_eq_getElem (by omega)
      rw [vget_ok hq, bind_ok]
      refine ⟨_, rfl, hb.push hq hn (by omega) (Or.inr hu), by rw [List.length_set], fun j hj => ?_, fun j vs hj => ?_⟩
      · rw [List.getElem?_set_ne (by omega)]
      · rw [List.getElem?_set]
        split
        · next e =>
          subst e
          rw [hq] at hj
          cases hj
          rw [if_pos (by omega)]
          exact ⟨_, rfl, fun u hu => List.mem_append_left _ hu⟩
        · exact ⟨vs, hj, fun u hu => hu⟩
    · exact ⟨bins, rfl, hb, rfl, fun _ _ => rfl, fun j vs h => ⟨vs, h, fun u hu => hu⟩⟩
  · exact ⟨bins, rfl, hb, rfl, fun _ _ => rfl, fun j vs h => ⟨vs, h, fun u hu => hu⟩⟩

theorem dbl_gt (d : Nat) : ∀ (fuel s : Nat), 0 < s → d < fuel + s → d < dbl d fuel s
  | 0, s, _, h => by unfold dbl; omega
  | fuel + 1, s, h0, h => by
    unfold dbl
    split
    · exact dbl_gt d fuel (2 * s) (by omega) (by omega)
    · omega

theorem dbl_ge (d : Nat) : ∀ (fuel s : Nat), s ≤ dbl d fuel s
  | 0, s => Nat.le_refl _
  | fuel + 1, s => by
    unfold dbl
    split
    · have := dbl_ge d fuel (2 * s)
      omega
    · omega

theorem growLoop_gt {s d : Nat} (h : 0 < s) : d < growLoop s d := dbl_gt d (d + 1) s h (by omega)

theorem BinOk.pad {bins : List (List Nat)} (h : BinOk t bins) (k : Nat) : BinOk t (bins ++ List.replicate k []) := by
  intro j vs hj v hv
  rcases Nat.lt_or_ge j bins.length with hx | hx
  · rw [List.getElem?_append_left hx] at hj
    exact h j vs hj v hv
  · rw [List.getElem?_append_right hx, List.getElem?_replicate] at hj
    split at hj
    · cases hj
      cases hv
    · cases hj

/-- the node is in the bin of its depth -/
def InBin (bins : List (List Nat)) (d v : Nat) : Prop := ∃ vs, bins[d]? = some vs ∧ v ∈ vs

theorem InBin.pad {bins : List (List Nat)} {d v : Nat} (h : InBin bins d v) (k : Nat) : InBin (bins ++ List.replicate k []) d v := by
  obtain ⟨vs, h1, h2⟩ := h
  exact ⟨vs, by rw [List.getElem?_append_left (List.getElem?_eq_some_iff.1 h1).1]; exact h1, h2⟩

theorem putBin_ok {grow : Nat → Nat → Nat} {skip0 : Bool} {d v : Nat} {b : List (List Nat)} {nd : Inner} (hn : t.nodes[v]? = some nd) (hd : nd.depth = d)
    (hg : d < b.length + (grow b.length d - b.length)) (hb : BinOk t b) :
    ∃ b', putBin grow skip0 d v b = .ok b' ∧ BinOk t b' ∧ b.length ≤ b'.length ∧ d < b'.length ∧ (d ≠ 0 ∨ skip0 = false → InBin b' d v) ∧
      (∀ e u, InBin b e u → InBin b' e u) ∧ b'.length = b.length + (grow b.length d - b.length) := by
  unfold putBin
  generalize grow b.length d - b.length = k at hg ⊢
  split
  · next hc =>
    refine ⟨_, rfl, hb.pad k, by simp, by simp; omega, fun h => ?_, fun e u h => h.pad k, by simp⟩
    simp only [Bool.and_eq_true, beq_iff_eq] at hc
    rcases h with h | h
    · exact absurd hc.2 h
    · rw [h] at hc
      exact absurd hc.1 (by simp)
  · have hl : d < (b ++ List.replicate k ([] : List Nat)).length := by
      rw [List.length_append, List.length_replicate]
      exact hg
    have hq : (b ++ List.replicate k ([] : List Nat))[d]? = some (b ++ List.replicate k ([] : List Nat))[d] := List.getElem?_eq_getElem hl
    rw [vget_ok hq, bind_ok]
    refine ⟨_, rfl, (hb.pad k).push hq hn (by omega) (Or.inl hd.symm), by simp, by rw [List.length_set]; exact hl, fun _ => ?_, fun e u h => ?_, by simp⟩
    · exact ⟨_, by rw [List.getElem?_set_self hl], by simp⟩
    · obtain ⟨vs, h1, h2⟩ := h.pad k
      rcases Nat.decEq d e with hne | heq
      · exact ⟨vs, by rw [List.getElem?_set_ne hne]; exact h1, h2⟩
      · subst heq
        rw [hq] at h1
        cases h1
        exact ⟨_, by rw [List.getElem?_set_self hl], List.mem_append_left _ h2⟩

theorem fillBins_ok {skip0 : Bool} : ∀ (vs : List Nat) (b : List (List Nat)), (∀ v ∈ vs, v < t.nodes.length) → 0 < b.length → BinOk t b →
    ∃ b', fillBins growLoop skip0 t vs b = .ok b' ∧ BinOk t b' ∧ b.length ≤ b'.length ∧
      (∀ v ∈ vs, ∀ nd, t.nodes[v]? = some nd → nd.depth < b'.length ∧ (nd.depth ≠ 0 ∨ skip0 = false → InBin b' nd.depth v)) ∧
      ∀ e u, InBin b e u → InBin b' e u
  | [], b, _, _, hb => ⟨b, rfl, hb, Nat.le_refl _, by simp, fun _ _ h => h⟩
  | v :: vs, b, hv, h0, hb => by
    obtain ⟨nd, hn⟩ : ∃ nd, t.nodes[v]? = some nd := ⟨_, List.getElem?_eq_getElem (hv v (List.mem_cons_self ..))⟩
    have hg := growLoop_gt (d := nd.depth) h0
    obtain ⟨b1, e1, e2, e3, e4, e5, e6, -⟩ := putBin_ok (grow := growLoop) (skip0 := skip0) hn rfl (by omega) hb
    obtain ⟨b2, f1, f2, f3, f4, f5⟩ := fillBins_ok vs b1 (fun u hu => hv u (List.mem_cons_of_mem _ hu)) (by omega) e2
    refine ⟨b2, by rw [fillBins, vget_ok hn, bind_ok, e1, bind_ok, f1], f2, by omega, fun u hu nu hnu => ?_, fun e u h => f5 e u (e6 e u h)⟩
    rcases List.mem_cons.1 hu with rfl | hu
    · rw [hn] at hnu
      cases hnu
      exact ⟨by omega, fun h => f5 _ _ (e5 h)⟩
    · exact f4 u hu nu hnu

theorem BinOk.init (k : Nat) : BinOk t (List.replicate k []) := by
  have := BinOk.pad (t := t) (bins := []) (fun j vs h => by simp at h) k
  simpa using this

end Lfs
end Tdc
