import Verif.Lemmas.LFSTree

namespace Tdc
namespace Lfs

open Arith (bind_ok)

variable {T : List UInt8} {t : Tree} {label : Nat → List UInt8}

/-! ## the loop over all bins -/

theorem treeBin_ok {step : Nat → Nat → W → Res W} {P : Nat → List Nat → W → Prop} {len : Nat}
    (hstep : ∀ v vs w, P len (v :: vs) w → ∃ w', step len v w = .ok w' ∧ P len vs w') :
    ∀ vs w, P len vs w → ∃ w', treeBin step len vs w = .ok w' ∧ P len [] w'
  | [], w, h => ⟨w, rfl, h⟩
  | v :: vs, w, h => by
    obtain ⟨w', e, h'⟩ := hstep v vs w h
    rw [treeBin, e, bind_ok]
    exact treeBin_ok hstep vs w' h'

theorem treeBins_ok {step : Nat → Nat → W → Res W} {P : Nat → List Nat → W → Prop} {minLrf : Nat} (hm : 0 < minLrf)
    (hstep : ∀ len v vs w, minLrf ≤ len → P len (v :: vs) w → ∃ w', step len v w = .ok w' ∧ P len vs w')
    (hnext : ∀ len w, P (len + 1) [] w → ∃ vs, w.bins[len]? = some vs ∧ P len vs w) :
    ∀ len w vs, w.bins[len]? = some vs → P len vs w → ∃ w' len' vs', treeBins step minLrf len w = .ok w' ∧ P len' vs' w'
  | 0, w, vs, _, h => ⟨w, 0, vs, by rw [treeBins, if_neg (by omega)], h⟩
  | len + 1, w, vs, hv, h => by
    rw [treeBins]
    split
    · next hl =>
      rw [vget_ok hv, bind_ok]
      obtain ⟨w', e, h'⟩ := treeBin_ok (fun v vs w => hstep (len + 1) v vs w hl) vs w h
      rw [e, bind_ok]
      obtain ⟨vs', hv', h''⟩ := hnext len w' h'
      exact treeBins_ok hm hstep hnext len w' vs' hv' h''
    · exact ⟨w, len + 1, vs, rfl, h⟩

theorem treeBins_zero (step : Nat → Nat → W → Res W) : ∀ len w, ∃ e, treeBins step 0 len w = .error e
  | 0, w => by
    rw [treeBins, if_pos rfl]
    cases (vget w.bins 0).bind fun vs => treeBin step 0 vs w with
    | error e => exact ⟨e, rfl⟩
    | ok _ => exact ⟨.ub, rfl⟩
  | len + 1, w => by
    rw [treeBins, if_pos (Nat.zero_le _)]
    cases vget w.bins (len + 1) with
    | error e => exact ⟨e, rfl⟩
    | ok vs =>
      rw [bind_ok]
      cases treeBin step (len + 1) vs w with
      | error e => exact ⟨e, rfl⟩
      | ok w' => exact treeBins_zero step len w'

/-! ## the strategies on the simulated suffix tree and on the binary suffix tree -/

/-- what holds while the nodes `vs` of bin `len` are still to be visited -/
structure WOk (T : List UInt8) (t : Tree) (label : Nat → List UInt8) (minLrf len : Nat) (vs : List Nat) (w : W) : Prop where
  ok : Ok T (max len minLrf) w.g
  begins : BgOk T t label w.begins
  bins : BinOk t w.bins
  room : len < w.bins.length
  todo : ∀ v ∈ vs, ∃ nd, t.nodes[v]? = some nd ∧ len ≤ nd.depth ∧ (len = nd.depth ∨ nd.up < len)

theorem WOk.next {minLrf len : Nat} {w : W} (h : WOk T t label minLrf (len + 1) [] w) : ∃ vs, w.bins[len]? = some vs ∧ WOk T t label minLrf len vs w := by
  have hl := h.room
  refine ⟨_, List.getElem?_eq_getElem (by omega), h.ok.mono (by omega), h.begins, h.bins, by omega, ?_⟩
  exact fun v hv => h.bins len _ (List.getElem?_eq_getElem (by omega)) v hv

/-- all positions of a node are occurrences of the first `len` characters of its label -/
theorem occ {v len : Nat} {nd : Inner} (hs : SoundTree T t label) (hn : t.nodes[v]? = some nd) (hd : len ≤ nd.depth) (h0 : 0 < len) {ps : List Nat}
    (hp : ∀ p ∈ ps, label v <+: T.drop p) : ∀ p ∈ ps, p + len ≤ T.length ∧ sub T p len = (label v).take len :=
  fun p hm => prefix_sub (hp p hm) (by rw [hs.depth v nd hn]; exact hd) h0

theorem rule_ok {minLrf len : Nat} {s : St} (h : Ok T (max len minLrf) s) (hm : minLrf ≤ len) (h0 : 0 < len) {ps : List Nat} {x : List UInt8}
    (hp : ∀ p ∈ ps, p + len ≤ T.length ∧ sub T p len = x) {sel : List Nat} (hsep : Sep len 0 sel)
    (hsel : ∀ p ∈ sel, p ∈ ps ∧ s.dead[p]? = some false ∧ s.dead[p + len - 1]? = some false) (h2 : sel.length ≥ 2) :
    ∃ s', addRule len (sel.headD 0) sel s = .ok s' ∧ Ok T (max len minLrf) s' := by
  rw [Nat.max_eq_left hm] at h ⊢
  have hb : sel.headD 0 ∈ sel := by
    cases sel with
    | nil => simp at h2
    | cons a l => simp
  have hh := hp _ (hsel _ hb).1
  exact addRule_ok h h0 hh.1 hsep h2 fun p hpm => ⟨(hp p (hsel p hpm).1).1, (hsel p hpm).2.1, (hsel p hpm).2.2, by rw [(hp p (hsel p hpm).1).2, hh.2]⟩

theorem alive_ok {minLrf len v : Nat} {nd : Inner} {w : W} (hs : SoundTree T t label) (hn : t.nodes[v]? = some nd) (hd : len ≤ nd.depth) (h0 : 0 < len)
    (h : Ok T (max len minLrf) w.g) : ∀ p, label v <+: T.drop p → ∃ b, notDead w.g.dead p = .ok b := fun p hp => by
  have := (prefix_sub hp (by rw [hs.depth v nd hn]; exact hd) h0).1
  rw [notDead, vget_ok (List.getElem?_eq_getElem (by rw [h.deadLen]; omega)), bind_ok]
  exact ⟨_, rfl⟩

theorem simStep_ok (hs : SoundTree T t label) {minLrf len v : Nat} {vs : List Nat} {w : W} (h1 : 0 < minLrf) (hm : minLrf ≤ len)
    (h : WOk T t label minLrf len (v :: vs) w) : ∃ w', simStep minLrf t len v w = .ok w' ∧ WOk T t label minLrf len vs w' := by
  obtain ⟨nd, hn, hd, -⟩ := h.todo v (List.mem_cons_self ..)
  have ht : ∀ u ∈ vs, ∃ nd, t.nodes[u]? = some nd ∧ len ≤ nd.depth ∧ (len = nd.depth ∨ nd.up < len) := fun u hu => h.todo u (List.mem_cons_of_mem _ hu)
  have hv : v < t.nodes.length := (List.getElem?_eq_some_iff.1 hn).1
  obtain ⟨ps, bg, g1, g2, g3⟩ := gather_ok hs false hv (alive_ok hs hn hd (by omega) h.ok) h.begins
  rw [simStep, g1, bind_ok]
  split
  · exact ⟨_, rfl, h.ok, g3, h.bins, h.room, ht⟩
  split
  · exact ⟨_, rfl, h.ok, g3, h.bins, h.room, ht⟩
  have ho := occ hs hn hd (by omega) g2
  have hdl : ∀ p ∈ ps, p + len ≤ w.g.dead.length := fun p hp => by rw [h.ok.deadLen]; exact (ho p hp).1
  obtain ⟨sel, rest, p1, p2, p3, p4⟩ := pick_ok false (dead := w.g.dead) (len := len) (by omega) ps 0 hdl
  obtain ⟨ms, m1⟩ := minShorter_ok (dead := w.g.dead) (len := len) (by omega) ps 1 hdl
  obtain ⟨bins, r1, r2, r3, -⟩ := readd_ok (minLrf := minLrf) (ms := ms) h.bins hn hd h.room
  rw [p1, bind_ok, m1, bind_ok, r1, bind_ok]
  split
  · next h2 =>
    obtain ⟨s', a1, a2⟩ := rule_ok h.ok hm (by omega) ho p2 p3 h2
    rw [a1, bind_ok]
    exact ⟨_, rfl, a2, g3.set fun l hl => by cases hl; exact fun p hp => g2 p (p4 p hp), r2, by rw [r3]; exact h.room, ht⟩
  · exact ⟨_, rfl, h.ok, g3, r2, by rw [r3]; exact h.room, ht⟩

theorem worth_ok {dead : List Bool} {len : Nat} {ps : List Nat} (hp : ∀ p ∈ ps, p < dead.length) : ∃ b, worth dead len ps = .ok b := by
  unfold worth
  split
  · next h =>
    have hl : ps.getLastD 0 ∈ ps := by
      cases ps with
      | nil => simp at h
      | cons a l =>
        have : (a :: l).getLastD 0 = (a :: l).getLast (by simp) := by simp [List.getLastD_eq_getLast?, List.getLast?_eq_getLast_of_ne_nil]
        rw [this]
        exact List.getLast_mem _
    have hh : ps.headD 0 ∈ ps := by
      cases ps with
      | nil => simp at h
      | cons a l => simp
    rw [vget_ok (List.getElem?_eq_getElem (hp _ hl)), bind_ok]
    split
    · exact ⟨_, rfl⟩
    · rw [vget_ok (List.getElem?_eq_getElem (hp _ hh)), bind_ok]
      exact ⟨_, rfl⟩
  · exact ⟨_, rfl⟩

theorem bstStep_ok (hs : SoundTree T t label) {minLrf len v : Nat} {vs : List Nat} {w : W} (h1 : 0 < minLrf) (hm : minLrf ≤ len)
    (h : WOk T t label minLrf len (v :: vs) w) : ∃ w', bstStep t len v w = .ok w' ∧ WOk T t label minLrf len vs w' := by
  obtain ⟨nd, hn, hd, -⟩ := h.todo v (List.mem_cons_self ..)
  have ht : ∀ u ∈ vs, ∃ nd, t.nodes[u]? = some nd ∧ len ≤ nd.depth ∧ (len = nd.depth ∨ nd.up < len) := fun u hu => h.todo u (List.mem_cons_of_mem _ hu)
  have hv : v < t.nodes.length := (List.getElem?_eq_some_iff.1 hn).1
  obtain ⟨ps, bg, g1, g2, g3⟩ := gather_ok hs true hv (alive_ok hs hn hd (by omega) h.ok) h.begins
  have ho := occ hs hn hd (by omega) g2
  have hdl : ∀ p ∈ ps, p + len ≤ w.g.dead.length := fun p hp => by rw [h.ok.deadLen]; exact (ho p hp).1
  obtain ⟨b, wb⟩ := worth_ok (dead := w.g.dead) (len := len) (ps := ps) fun p hp => by have := hdl p hp; omega
  rw [bstStep, g1, bind_ok, wb, bind_ok]
  split
  · obtain ⟨sel, rest, p1, p2, p3, p4⟩ := pick_ok true (dead := w.g.dead) (len := len) (by omega) ps 0 hdl
    rw [p1, bind_ok]
    split
    · next h2 =>
      obtain ⟨s', a1, a2⟩ := rule_ok h.ok hm (by omega) ho p2 p3 h2
      rw [a1, bind_ok]
      exact ⟨_, rfl, a2, g3.set fun l hl => by cases hl; exact fun p hp => g2 p (p4 p hp), h.bins, h.room, ht⟩
    · exact ⟨_, rfl, h.ok, g3, h.bins, h.room, ht⟩
  · exact ⟨_, rfl, h.ok, g3, h.bins, h.room, ht⟩

theorem BgOk.init (T : List UInt8) (t : Tree) (label : Nat → List UInt8) : BgOk T t label (List.replicate t.nodes.length none) := by
  refine ⟨by simp, fun v l h => ?_⟩
  rw [List.getElem?_replicate] at h
  split at h <;> cases h

theorem WOk.start {minLrf len : Nat} {b : List (List Nat)} (hb : BinOk t b) (hl : len < b.length) :
    ∃ vs, (startW t T.length b).bins[len]? = some vs ∧ WOk T t label minLrf len vs (startW t T.length b) :=
  ⟨_, List.getElem?_eq_getElem hl, Ok.init T _, BgOk.init T t label, hb, hl, fun v hv => hb len _ (List.getElem?_eq_getElem hl) v hv⟩

theorem simRules_ok (hs : SoundTree T t label) {minLrf : Nat} (hm : 0 < minLrf) :
    ∃ s, simRules minLrf t T.length = .ok (s.dict, s.nts.mergeSort ntLe) ∧ Ok T minLrf s := by
  obtain ⟨b, f1, f2, f3, -⟩ := fillBins_ok (skip0 := false) t.order (List.replicate 200 []) hs.order (by rw [List.length_replicate]; omega) (BinOk.init 200)
  rw [List.length_replicate] at f3
  obtain ⟨vs, e1, e2⟩ := WOk.start (T := T) (label := label) (minLrf := minLrf) (len := b.length - 1) f2 (by omega)
  obtain ⟨w, len, vs', g1, g2⟩ := treeBins_ok (P := WOk T t label minLrf) hm (fun len v vs w hl h => simStep_ok hs hm hl h) (fun len w h => h.next) _ _ _ e1 e2
  exact ⟨w.g, by rw [simRules, f1, bind_ok, g1, bind_ok], g2.ok.mono (by omega)⟩

theorem foldl_max_ge (l : List Nat) : ∀ a, a ≤ l.foldl max a ∧ ∀ v ∈ l, v ≤ l.foldl max a := by
  induction l with
  | nil => intro a; simp
  | cons x l ih =>
    intro a
    obtain ⟨h1, h2⟩ := ih (max a x)
    refine ⟨by simp only [List.foldl_cons]; omega, fun v hv => ?_⟩
    simp only [List.foldl_cons]
    rcases List.mem_cons.1 hv with rfl | hv
    · omega
    · exact h2 v hv

theorem foldl_max_lt {m : Nat} (l : List Nat) : ∀ a, a < m → (∀ v ∈ l, v < m) → l.foldl max a < m := by
  induction l with
  | nil => intro a h _; exact h
  | cons x l ih =>
    intro a h hl
    simp only [List.foldl_cons]
    exact ih _ (by have := hl x (List.mem_cons_self ..); omega) fun v hv => hl v (List.mem_cons_of_mem _ hv)

theorem BinOk.take {bins : List (List Nat)} (h : BinOk t bins) (k : Nat) : BinOk t (bins.take k) := by
  intro j vs hj
  rw [List.getElem?_take] at hj
  split at hj
  · exact h j vs hj
  · cases hj

theorem bstRules_ok (hs : SoundTree T t label) {minLrf : Nat} (hm : 0 < minLrf) :
    ∃ s, bstRules minLrf t T.length = .ok (s.dict, s.nts.mergeSort ntLe) ∧ Ok T minLrf s := by
  obtain ⟨b, f1, f2, f3, f4, -⟩ := fillBins_ok (skip0 := true) t.order (List.replicate 200 []) hs.order (by rw [List.length_replicate]; omega) (BinOk.init 200)
  rw [List.length_replicate] at f3
  have hd : maxDepth t < b.length := by
    refine foldl_max_lt _ 0 (by omega) fun d hd => ?_
    obtain ⟨v, hv, e⟩ := List.mem_filterMap.1 hd
    cases hn : t.nodes[v]? with
    | none => rw [hn] at e; cases e
    | some nd =>
      rw [hn] at e
      cases e
      exact (f4 v hv nd hn).1
  obtain ⟨vs, e1, e2⟩ := WOk.start (T := T) (label := label) (minLrf := minLrf) (len := maxDepth t) (f2.take (maxDepth t + 1)) (by rw [List.length_take]; omega)
  obtain ⟨w, len, vs', g1, g2⟩ := treeBins_ok (P := WOk T t label minLrf) hm (fun len v vs w hl h => bstStep_ok hs hm hl h) (fun len w h => h.next) _ _ _ e1 e2
  exact ⟨w.g, by rw [bstRules, f1, bind_ok, g1, bind_ok], g2.ok.mono (by omega)⟩

end Lfs
end Tdc
