import Verif.Lemmas.LFSTree2

namespace Tdc
namespace Lfs

open Arith (bind_ok)

variable {T : List UInt8} {t : Tree} {label : Nat → List UInt8}

/-! ## the bins of STStrategy -/

/-- the bins, of size `s` at first, are large enough if they are doubled at most once per node -/
def Fits : Nat → List Nat → Prop
  | _, [] => True
  | s, d :: ds => d < 2 * s ∧ Fits (growOnce s d) ds

theorem fits_of_lt {s : Nat} : ∀ (ds : List Nat) (k : Nat), (k = s ∨ k = 2 * s) → (∀ d ∈ ds, d < 2 * s) → Fits k ds
  | [], _, _, _ => trivial
  | d :: ds, k, hk, h => by
    have hd := h d (List.mem_cons_self ..)
    refine ⟨by omega, fits_of_lt ds _ ?_ fun e he => h e (List.mem_cons_of_mem _ he)⟩
    unfold growOnce
    split <;> omega

theorem growOnce_gt {s d : Nat} (h : d < 2 * s) : d < s + (growOnce s d - s) := by
  unfold growOnce
  split <;> omega

/-- the depths of the nodes -/
def depths (t : Tree) (vs : List Nat) : List Nat := vs.map fun v => (t.nodes[v]?.map Inner.depth).getD 0

theorem fillST_ok : ∀ (vs : List Nat) (b : List (List Nat)), (∀ v ∈ vs, v < t.nodes.length) → Fits b.length (depths t vs) → BinOk t b →
    ∃ b', fillBins growOnce true t vs b = .ok b' ∧ BinOk t b' ∧ b.length ≤ b'.length ∧
      (∀ v ∈ vs, ∀ nd, t.nodes[v]? = some nd → nd.depth < b'.length ∧ (nd.depth ≠ 0 → InBin b' nd.depth v)) ∧
      ∀ e u, InBin b e u → InBin b' e u
  | [], b, _, _, hb => ⟨b, rfl, hb, Nat.le_refl _, by simp, fun _ _ h => h⟩
  | v :: vs, b, hv, hf, hb => by
    obtain ⟨nd, hn⟩ : ∃ nd, t.nodes[v]? = some nd := ⟨_, List.getElem?_eq_getElem (hv v (List.mem_cons_self ..))⟩
    simp only [depths, List.map_cons, hn, Option.map_some, Option.getD_some, Fits] at hf
    obtain ⟨b1, e1, e2, e3, e4, e5, e6, e7⟩ := putBin_ok (grow := growOnce) (skip0 := true) hn rfl (growOnce_gt hf.1) hb
    obtain ⟨b2, f1, f2, f3, f4, f5⟩ := fillST_ok vs b1 (fun u hu => hv u (List.mem_cons_of_mem _ hu)) (by
      rw [e7]
      have : b.length + (growOnce b.length nd.depth - b.length) = growOnce b.length nd.depth := by
        unfold growOnce
        split <;> omega
      rw [this]
      exact hf.2) e2
    refine ⟨b2, by rw [fillBins, vget_ok hn, bind_ok, e1, bind_ok, f1], f2, by omega, fun u hu nu hnu => ?_, fun e u h => f5 e u (e6 e u h)⟩
    rcases List.mem_cons.1 hu with rfl | hu
    · rw [hn] at hnu
      cases hnu
      exact ⟨by omega, fun h => f5 _ _ (e5 (Or.inl h))⟩
    · exact f4 u hu nu hnu

/-- without this condition a bin behind the end of the vector is written -/
theorem fillST_ub : ∀ (vs : List Nat) (b : List (List Nat)), (∀ v ∈ vs, v < t.nodes.length) → 0 < b.length → ¬ Fits b.length (depths t vs) → BinOk t b →
    fillBins growOnce true t vs b = .error .ub
  | [], b, _, _, hf, _ => absurd trivial hf
  | v :: vs, b, hv, h0, hf, hb => by
    obtain ⟨nd, hn⟩ : ∃ nd, t.nodes[v]? = some nd := ⟨_, List.getElem?_eq_getElem (hv v (List.mem_cons_self ..))⟩
    simp only [depths, List.map_cons, hn, Option.map_some, Option.getD_some, Fits] at hf
    rw [fillBins, vget_ok hn, bind_ok]
    by_cases hd : nd.depth < 2 * b.length
    · obtain ⟨b1, e1, e2, e3, e4, e5, e6, e7⟩ := putBin_ok (grow := growOnce) (skip0 := true) hn rfl (growOnce_gt hd) hb
      rw [e1, bind_ok]
      refine fillST_ub vs b1 (fun u hu => hv u (List.mem_cons_of_mem _ hu)) (by omega) (fun h => hf ⟨hd, ?_⟩) e2
      have : b.length + (growOnce b.length nd.depth - b.length) = growOnce b.length nd.depth := by
        unfold growOnce
        split <;> omega
      rw [e7, this] at h
      exact h
    · have : (b ++ List.replicate (growOnce b.length nd.depth - b.length) ([] : List Nat))[nd.depth]? = none := by
        rw [List.getElem?_eq_none_iff, List.length_append, List.length_replicate]
        unfold growOnce
        split <;> omega
      have hv' : vget (b ++ List.replicate (growOnce b.length nd.depth - b.length) ([] : List Nat)) nd.depth = .error .ub := by
        unfold vget
        rw [this]
      rw [putBin, if_neg (by simp; omega), hv']
      rfl

/-! ## the lists of positions of STStrategy -/

/-- the node has a list of positions -/
def NE (bg : Begins) (v : Nat) : Prop := ∃ x l, bg[v]? = some (some (x :: l))

/-- the node has been visited before, when `vs` are to be visited in bin `len` -/
def Done (t : Tree) (len : Nat) (vs : List Nat) (v : Nat) : Prop := ∃ nd, t.nodes[v]? = some nd ∧ (len < nd.depth ∨ (nd.depth = len ∧ v ∉ vs))

/-- a visited node has a list unless its parent has taken it -/
structure STInv (t : Tree) (len : Nat) (vs : List Nat) (bg : Begins) : Prop where
  kid : ∀ (u c : Nat) (nu : Inner), t.nodes[u]? = some nu → Kid.node c ∈ nu.kids → Done t len vs c → NE bg c ∨ NE bg u ∨ Done t len vs u
  seen : ∀ (u : Nat) (nu : Inner), t.nodes[u]? = some nu → bg[u]? ≠ some none → len ≤ nu.depth
  ne : ∀ (u : Nat) (l : List Nat), bg[u]? = some (some l) → l ≠ []

theorem appendKids_ok (hs : SoundTree T t label) {w : List UInt8} : ∀ (ks : List Kid) (acc : List Nat) (bg : Begins),
    (∀ p, Kid.leaf p ∈ ks → w <+: T.drop p) → (∀ c, Kid.node c ∈ ks → c < t.nodes.length ∧ w <+: label c) →
    (∀ p ∈ acc, w <+: T.drop p) → BgOk T t label bg →
    ∃ acc' bg', appendKids ks acc bg = .ok (acc', bg') ∧ (∀ p ∈ acc', w <+: T.drop p) ∧ BgOk T t label bg' ∧
      (∀ u : Nat, Kid.node u ∉ ks → bg'[u]? = bg[u]?) ∧ (∀ u : Nat, bg'[u]? ≠ bg[u]? → bg'[u]? = some none) ∧
      (acc' = [] → acc = [] ∧ ∀ k ∈ ks, ∃ c, k = Kid.node c ∧ ¬ NE bg c)
  | [], acc, bg, _, _, ha, hb => ⟨acc, bg, rfl, ha, hb, fun _ _ => rfl, fun _ h => absurd rfl h, fun h => ⟨h, by simp⟩⟩
  | .leaf p :: ks, acc, bg, h1, h2, ha, hb => by
    obtain ⟨acc', bg', e1, e2, e3, e4, e5, e6⟩ := appendKids_ok hs ks (acc ++ [p]) bg (fun q hq => h1 q (List.mem_cons_of_mem _ hq))
      (fun c hc => h2 c (List.mem_cons_of_mem _ hc)) (fun q hq => by
        rcases List.mem_append.1 hq with hq | hq
        · exact ha q hq
        · rw [List.mem_singleton.1 hq]
          exact h1 p (List.mem_cons_self ..)) hb
    refine ⟨acc', bg', by rw [appendKids, e1], e2, e3, fun u hu => e4 u fun h => hu (List.mem_cons_of_mem _ h), e5, fun h => ?_⟩
    have := (e6 h).1
    simp at this
  | .node c :: ks, acc, bg, h1, h2, ha, hb => by
    obtain ⟨hc, hw⟩ := h2 c (List.mem_cons_self ..)
    have h1' : ∀ p, Kid.leaf p ∈ ks → w <+: T.drop p := fun q hq => h1 q (List.mem_cons_of_mem _ hq)
    have h2' : ∀ d, Kid.node d ∈ ks → d < t.nodes.length ∧ w <+: label d := fun d hd => h2 d (List.mem_cons_of_mem _ hd)
    have hcb : c < bg.length := by rw [hb.1]; exact hc
    obtain ⟨e, he⟩ : ∃ e, bg[c]? = some e := ⟨_, List.getElem?_eq_getElem hcb⟩
    rw [appendKids, vget_ok he, bind_ok]
    cases e with
    | none =>
      obtain ⟨acc', bg', e1, e2, e3, e4, e5, e6⟩ := appendKids_ok hs ks acc bg h1' h2' ha hb
      refine ⟨acc', bg', e1, e2, e3, fun u hu => e4 u fun h => hu (List.mem_cons_of_mem _ h), e5, fun h => ?_⟩
      refine ⟨(e6 h).1, fun k hk => ?_⟩
      rcases List.mem_cons.1 hk with rfl | hk
      · refine ⟨c, rfl, ?_⟩
        rintro ⟨x, l, hx⟩
        rw [he] at hx
        cases hx
      · exact (e6 h).2 k hk
    | some l =>
      obtain ⟨acc', bg', e1, e2, e3, e4, e5, e6⟩ := appendKids_ok hs ks (acc ++ l) (bg.set c none) h1' h2' (fun p hp => by
        rcases List.mem_append.1 hp with hp | hp
        · exact ha p hp
        · exact hw.trans (hb.2 c _ he p hp)) (hb.set fun l hl => by cases hl)
      refine ⟨acc', bg', e1, e2, e3, fun u hu => ?_, fun u hu => ?_, fun h => ?_⟩
      · rw [e4 u fun h => hu (List.mem_cons_of_mem _ h), List.getElem?_set_ne]
        rintro rfl
        exact hu (List.mem_cons_self ..)
      · by_cases hx : bg'[u]? = (bg.set c none)[u]?
        · rw [hx] at hu ⊢
          rw [List.getElem?_set] at hu ⊢
          split at hu
          · next e =>
            subst e
            rw [if_pos rfl]
            rw [if_pos hcb]
          · exact absurd rfl hu
        · exact e5 u hx
      · obtain ⟨q1, q2⟩ := e6 h
        rw [List.append_eq_nil_iff] at q1
        refine ⟨q1.1, fun k hk => ?_⟩
        rcases List.mem_cons.1 hk with rfl | hk
        · refine ⟨c, rfl, ?_⟩
          rintro ⟨x, l', hx⟩
          rw [he, q1.2] at hx
          cases hx
        · obtain ⟨d, rfl, hd⟩ := q2 k hk
          refine ⟨d, rfl, ?_⟩
          rintro ⟨x, l', hx⟩
          by_cases hcd : c = d
          · subst hcd
            rw [he, q1.2] at hx
            cases hx
          · exact hd ⟨x, l', by rw [List.getElem?_set_ne hcd]; exact hx⟩

theorem Done.mono {len v : Nat} {vs : List Nat} {u : Nat} (h : Done t len (v :: vs) u) : Done t len vs u := by
  obtain ⟨nd, h1, h2⟩ := h
  refine ⟨nd, h1, ?_⟩
  rcases h2 with h2 | h2
  · exact Or.inl h2
  · exact Or.inr ⟨h2.1, fun h => h2.2 (List.mem_cons_of_mem _ h)⟩

theorem gatherST_ok (hs : SoundTree T t label) (hp : ProperTree t) {len v : Nat} {vs : List Nat} {nd : Inner} (hn : t.nodes[v]? = some nd) (hd : len ≤ nd.depth)
    (hu : len = nd.depth ∨ nd.up < len) (h0 : 0 < len) {bg : Begins} (hb : BgOk T t label bg) (hi : STInv t len (v :: vs) bg) :
    ∃ ps bg', gatherST t v bg = .ok (ps, bg') ∧ (∀ p ∈ ps, label v <+: T.drop p) ∧ BgOk T t label bg' ∧ STInv t len vs bg' := by
  have hv : v < t.nodes.length := (List.getElem?_eq_some_iff.1 hn).1
  have hvb : v < bg.length := by rw [hb.1]; exact hv
  obtain ⟨e, he⟩ : ∃ e, bg[v]? = some e := ⟨_, List.getElem?_eq_getElem hvb⟩
  rw [gatherST, vget_ok hn, bind_ok, vget_ok he, bind_ok]
  -- a node that is done now and was not before is `v`
  have split : ∀ c, Done t len vs c → Done t len (v :: vs) c ∨ c = v := by
    rintro c ⟨nc, h1, h2⟩
    by_cases hc : c = v
    · exact Or.inr hc
    · refine Or.inl ⟨nc, h1, ?_⟩
      rcases h2 with h2 | h2
      · exact Or.inl h2
      · exact Or.inr ⟨h2.1, fun h => by rcases List.mem_cons.1 h with h | h; exact hc h; exact h2.2 h⟩
  cases e with
  | some l =>
    refine ⟨l, bg, rfl, fun p hp => hb.2 v l he p hp, hb, ?_, hi.seen, hi.ne⟩
    intro u c nu h1 h2 h3
    rcases split c h3 with h | rfl
    · rcases hi.kid u c nu h1 h2 h with h | h | h
      · exact Or.inl h
      · exact Or.inr (Or.inl h)
      · exact Or.inr (Or.inr h.mono)
    · have := hi.ne c l he
      cases l with
      | nil => exact absurd rfl this
      | cons x l => exact Or.inl ⟨x, l, he⟩
  | none =>
    -- the first visit
    have hlen : nd.depth = len := by
      rcases hu with hu | hu
      · exact hu.symm
      · by_contra hne
        have hpos : 0 < nd.depth := by omega
        obtain ⟨u, nu, g1, g2⟩ := hp.child v nd hn hpos
        obtain ⟨k1, k2⟩ := hp.deeper u nu v nd g1 g2 hn
        rcases hi.kid u v nu g1 g2 ⟨nd, hn, Or.inl (by omega)⟩ with h | h | h
        · obtain ⟨x, l, hx⟩ := h
          rw [he] at hx
          cases hx
        · obtain ⟨x, l, hx⟩ := h
          have := hi.seen u nu g1 (by rw [hx]; simp)
          omega
        · obtain ⟨nu', q1, q2⟩ := h
          rw [g1] at q1
          cases q1
          omega
    have hkids : ∀ c, Kid.node c ∈ nd.kids → NE bg c := by
      intro c hc
      have hcl := (hs.node v nd c hn hc).1
      obtain ⟨nc, hnc⟩ : ∃ nc, t.nodes[c]? = some nc := ⟨_, List.getElem?_eq_getElem hcl⟩
      obtain ⟨k1, k2⟩ := hp.deeper v nd c nc hn hc hnc
      rcases hi.kid v c nd hn hc ⟨nc, hnc, Or.inl (by omega)⟩ with h | h | h
      · exact h
      · obtain ⟨x, l, hx⟩ := h
        rw [he] at hx
        cases hx
      · obtain ⟨nd', q1, q2⟩ := h
        rw [hn] at q1
        cases q1
        rcases q2 with q2 | q2
        · omega
        · exact absurd (List.mem_cons_self ..) q2.2
    obtain ⟨acc, bg', e1, e2, e3, e4, e5, e6⟩ := appendKids_ok hs nd.kids [] bg (fun p h => hs.leaf v nd p hn h) (fun c h => hs.node v nd c hn h) (by simp) hb
    have hne : acc ≠ [] := by
      intro h
      obtain ⟨-, q⟩ := e6 h
      cases hk : nd.kids with
      | nil => exact hp.kids v nd hn (by omega) hk
      | cons k ks =>
        obtain ⟨c, rfl, hc⟩ := q k (by rw [hk]; exact List.mem_cons_self ..)
        exact hc (hkids c (by rw [hk]; exact List.mem_cons_self ..))
    have hsort : sortPos acc ≠ [] := by
      intro h
      obtain ⟨x, l, rfl⟩ := List.exists_cons_of_ne_nil hne
      have : x ∈ sortPos (x :: l) := mem_sortPos.2 (List.mem_cons_self ..)
      rw [h] at this
      cases this
    have hvk : Kid.node v ∉ nd.kids := by
      intro h
      have := (hp.deeper v nd v nd hn h hn).2
      omega
    have hvb' : v < bg'.length := by rw [e3.1]; exact hv
    rw [e1, bind_ok, if_neg (by simpa using hne)]
    refine ⟨_, _, rfl, fun p hpm => e2 p (mem_sortPos.1 hpm), e3.set fun l hl => by cases hl; exact fun p hpm => e2 p (mem_sortPos.1 hpm), ?_, ?_, ?_⟩
    · have hNEv : NE (bg'.set v (some (sortPos acc))) v := by
        obtain ⟨x, l, hx⟩ := List.exists_cons_of_ne_nil hsort
        exact ⟨x, l, by rw [List.getElem?_set_self hvb', hx]⟩
      intro u c nu h1 h2 h3
      by_cases huv : u = v
      · exact Or.inr (Or.inl (huv ▸ hNEv))
      have hck : Kid.node c ∉ nd.kids := fun h => huv (hp.parent u v nu nd c h1 hn h2 h)
      rcases split c h3 with h | rfl
      · rcases hi.kid u c nu h1 h2 h with h | h | h
        · obtain ⟨x, l, hx⟩ := h
          by_cases hcv : c = v
          · exact Or.inl (hcv ▸ hNEv)
          · exact Or.inl ⟨x, l, by rw [List.getElem?_set_ne (fun h => hcv h.symm), e4 c hck]; exact hx⟩
        · by_cases huk : Kid.node u ∈ nd.kids
          · right; right
            obtain ⟨k1, k2⟩ := hp.deeper v nd u nu hn huk h1
            exact ⟨nu, h1, Or.inl (by omega)⟩
          · obtain ⟨x, l, hx⟩ := h
            exact Or.inr (Or.inl ⟨x, l, by rw [List.getElem?_set_ne (fun h => huv h.symm), e4 u huk]; exact hx⟩)
        · exact Or.inr (Or.inr h.mono)
      · exact Or.inl hNEv
    · intro u nu h1 h2
      by_cases huv : u = v
      · subst huv
        rw [hn] at h1
        cases h1
        exact hd
      · rw [List.getElem?_set_ne (fun h => huv h.symm)] at h2
        by_cases hx : bg'[u]? = bg[u]?
        · exact hi.seen u nu h1 (by rw [← hx]; exact h2)
        · exact absurd (e5 u hx) h2
    · intro u l hl
      by_cases huv : u = v
      · subst huv
        rw [List.getElem?_set_self hvb'] at hl
        cases hl
        exact hsort
      · rw [List.getElem?_set_ne (fun h => huv h.symm)] at hl
        by_cases hx : bg'[u]? = bg[u]?
        · exact hi.ne u l (by rw [← hx]; exact hl)
        · rw [e5 u hx] at hl
          cases hl

/-- what holds while STStrategy visits the nodes `vs` of bin `len` -/
structure SOk (T : List UInt8) (t : Tree) (label : Nat → List UInt8) (minLrf len : Nat) (vs : List Nat) (w : W) : Prop where
  base : WOk T t label minLrf len vs w
  st : STInv t len vs w.begins
  rest : ∀ (v : Nat) (nd : Inner), t.nodes[v]? = some nd → nd.depth ≠ 0 → nd.depth < len → InBin w.bins nd.depth v

theorem stStep_ok (hs : SoundTree T t label) (hp : ProperTree t) {minLrf len v : Nat} {vs : List Nat} {w : W} (h1 : 0 < minLrf) (hm : minLrf ≤ len)
    (h : SOk T t label minLrf len (v :: vs) w) : ∃ w', stStep minLrf t len v w = .ok w' ∧ SOk T t label minLrf len vs w' := by
  obtain ⟨h, hst, hrest⟩ := h
  obtain ⟨nd, hn, hd, hu⟩ := h.todo v (List.mem_cons_self ..)
  have ht : ∀ u ∈ vs, ∃ nd, t.nodes[u]? = some nd ∧ len ≤ nd.depth ∧ (len = nd.depth ∨ nd.up < len) := fun u hu => h.todo u (List.mem_cons_of_mem _ hu)
  obtain ⟨ps, bg, g1, g2, g3, g4⟩ := gatherST_ok hs hp hn hd hu (by omega) h.begins hst
  have ho := occ hs hn hd (by omega) g2
  have hdl : ∀ p ∈ ps, p + len ≤ w.g.dead.length := fun p hp => by rw [h.ok.deadLen]; exact (ho p hp).1
  obtain ⟨b, wb⟩ := worth_ok (dead := w.g.dead) (len := len) (ps := ps) fun p hp => by have := hdl p hp; omega
  rw [stStep, g1, bind_ok, wb, bind_ok]
  split
  · obtain ⟨sel, rest, p1, p2, p3, p4⟩ := pick_ok false (dead := w.g.dead) (len := len) (by omega) ps 0 hdl
    obtain ⟨ms, m1⟩ := minShorter_ok (dead := w.g.dead) (len := len) (by omega) ps 1 hdl
    obtain ⟨bins, r1, r2, r3, -, r5⟩ := readd_ok (minLrf := minLrf) (ms := ms) h.bins hn hd h.room
    have hrest' : ∀ (v : Nat) (nd : Inner), t.nodes[v]? = some nd → nd.depth ≠ 0 → nd.depth < len → InBin bins nd.depth v := by
      intro u nu q1 q2 q3
      obtain ⟨us, k1, k2⟩ := hrest u nu q1 q2 q3
      obtain ⟨us', k3, k4⟩ := r5 _ _ k1
      exact ⟨us', k3, k4 u k2⟩
    rw [p1, bind_ok, m1, bind_ok, r1, bind_ok]
    split
    · next h2 =>
      obtain ⟨s', a1, a2⟩ := rule_ok h.ok hm (by omega) ho p2 p3 h2
      rw [a1, bind_ok]
      exact ⟨_, rfl, ⟨a2, g3, r2, by rw [r3]; exact h.room, ht⟩, g4, hrest'⟩
    · exact ⟨_, rfl, ⟨h.ok, g3, r2, by rw [r3]; exact h.room, ht⟩, g4, hrest'⟩
  · exact ⟨_, rfl, ⟨h.ok, g3, h.bins, h.room, ht⟩, g4, hrest⟩

theorem SOk.next (hs : SoundTree T t label) (hp : ProperTree t) {minLrf len : Nat} {w : W} (h : SOk T t label minLrf (len + 1) [] w) :
    ∃ vs, w.bins[len]? = some vs ∧ SOk T t label minLrf len vs w := by
  obtain ⟨h, hst, hrest⟩ := h
  obtain ⟨vs, e1, e2⟩ := h.next
  refine ⟨vs, e1, e2, ⟨?_, fun u nu q1 q2 => by have := hst.seen u nu q1 q2; omega, hst.ne⟩, fun u nu q1 q2 q3 => hrest u nu q1 q2 (by omega)⟩
  -- a node of depth `len` is in its bin
  have key : ∀ c, Done t len vs c → Done t (len + 1) [] c ∨ ∃ nc, t.nodes[c]? = some nc ∧ nc.depth = 0 := by
    rintro c ⟨nc, q1, q2⟩
    rcases q2 with q2 | ⟨q2, q3⟩
    · left
      refine ⟨nc, q1, ?_⟩
      rcases Nat.lt_or_ge (len + 1) nc.depth with hx | hx
      · exact Or.inl hx
      · exact Or.inr ⟨by omega, by simp⟩
    · by_cases hz : nc.depth = 0
      · exact Or.inr ⟨nc, q1, hz⟩
      · obtain ⟨us, k1, k2⟩ := hrest c nc q1 hz (by omega)
        rw [q2, e1] at k1
        cases k1
        exact absurd k2 q3
  have back : ∀ c, Done t (len + 1) [] c → Done t len vs c := by
    rintro c ⟨nc, q1, q2⟩
    exact ⟨nc, q1, Or.inl (by omega)⟩
  intro u c nu h1 h2 h3
  rcases key c h3 with h | ⟨nc, q1, q2⟩
  · rcases hst.kid u c nu h1 h2 h with h | h | h
    · exact Or.inl h
    · exact Or.inr (Or.inl h)
    · exact Or.inr (Or.inr (back u h))
  · have := (hp.deeper u nu c nc h1 h2 q1).2
    omega

theorem stRules_ok (hs : SoundTree T t label) (hp : ProperTree t) (hf : Fits 200 (depths t t.order)) {minLrf : Nat} (hm : 0 < minLrf) :
    ∃ s, stRules minLrf t T.length = .ok (s.dict, s.nts.mergeSort ntLe) ∧ Ok T minLrf s := by
  obtain ⟨b, f1, f2, f3, f4, -⟩ := fillST_ok t.order (List.replicate 200 []) hs.order (by rw [List.length_replicate]; exact hf) (BinOk.init 200)
  rw [List.length_replicate] at f3
  obtain ⟨vs, e1, e2⟩ := WOk.start (T := T) (label := label) (minLrf := minLrf) (len := b.length - 1) f2 (by omega)
  have hrest : ∀ (v : Nat) (nd : Inner), t.nodes[v]? = some nd → nd.depth < b.length ∧ (nd.depth ≠ 0 → InBin b nd.depth v) :=
    fun v nd hn => by
      by_cases h0 : nd.depth = 0
      · exact ⟨by omega, fun h => absurd h0 h⟩
      · exact f4 v (hp.all v nd hn (by omega)) nd hn
  have hnone : ∀ u : Nat, u < t.nodes.length → (startW t T.length b).begins[u]? = some none := fun u hu => by
    simp only [startW]
    rw [List.getElem?_replicate, if_pos hu]
  have e3 : SOk T t label minLrf (b.length - 1) vs (startW t T.length b) := by
    refine ⟨e2, ⟨?_, ?_, ?_⟩, fun v nd hn h1 _ => (hrest v nd hn).2 h1⟩
    · rintro u c nu - - ⟨nc, h1, h2⟩
      exfalso
      have h3 := hrest c nc h1
      rcases h2 with h2 | ⟨h2, h4⟩
      · omega
      · obtain ⟨us, k1, k2⟩ := h3.2 (by omega)
        have : (startW t T.length b).bins = b := rfl
        rw [h2] at k1
        rw [this, k1] at e1
        cases e1
        exact h4 k2
    · intro u nu h1 h2
      exact absurd (hnone u (List.getElem?_eq_some_iff.1 h1).1) h2
    · intro u l h
      have hu : u < t.nodes.length := by
        have := (List.getElem?_eq_some_iff.1 h).1
        simpa [startW] using this
      rw [hnone u hu] at h
      cases h
  obtain ⟨w, len, vs', g1, g2⟩ := treeBins_ok (P := SOk T t label minLrf) hm (fun len v vs w hl h => stStep_ok hs hp hm hl h) (fun len w h => h.next hs hp) _ _ _ e1 e3
  exact ⟨w.g, by rw [stRules, f1, bind_ok, g1, bind_ok], g2.base.ok.mono (by omega)⟩

end Lfs
end Tdc
