import Verif.Model.LcpDec
import Verif.Lemmas.TextDS
import Verif.Lemmas.LZSSCoding
import Verif.Spec.Factors
import Verif.Lemmas.Suffix
import Mathlib.Tactic.ByContra

namespace Tdc
namespace LC

theorem foldlM_cons_ok {σ α : Type} {f : σ → α → Res σ} {s s' : σ} {a : α} {l : List α} (h : f s a = .ok s') :
    (a :: l).foldlM f s = l.foldlM f s' := by
  rw [List.foldlM_cons, h]; rfl

theorem foldlM_nil_ok {σ α : Type} {f : σ → α → Res σ} {s : σ} : ([] : List α).foldlM f s = .ok s := rfl

theorem foldlM_append_ok {σ α : Type} {f : σ → α → Res σ} {s s' : σ} {l l' : List α} (h : l.foldlM f s = .ok s') :
    (l ++ l').foldlM f s = l'.foldlM f s' := by
  rw [List.foldlM_append, h]; rfl

/-- `q` waits for `s` -/
def Waits (g : Cfg) (st : FB) (s q : Nat) : Prop := ∃ r l, g.ix s = some r ∧ st.fwd[r]? = some (some l) ∧ q ∈ l

/-- what is known about the positions: `U` positions may be copied from and to, `L` positions may be written -/
structure Ctx (text : List UInt8) (g : Cfg) (rank : Nat → Nat) (U L : Nat → Prop) : Prop where
  inj : ∀ s s' r, g.ix s = some r → g.ix s' = some r → s = s'
  mem : ∀ l q x, x ∈ g.ins l q ↔ x ∈ l ∨ x = q
  ult : ∀ i, U i → i < text.length
  unz : ∀ i, U i → g.zero = true → text[i]? ≠ some 0
  ul : ∀ i, U i → L i

/-- a legal pair of source and target -/
structure Pair (text : List UInt8) (rank : Nat → Nat) (U : Nat → Prop) (s q : Nat) : Prop where
  us : U s
  uq : U q
  eq : text[s]? = text[q]?
  lt : rank s < rank q

structure Good (text : List UInt8) (g : Cfg) (rank : Nat → Nat) (U L : Nat → Prop) (st : FB) (Act : Nat → Prop) : Prop where
  bl : st.buf.length = text.length
  dl : st.dec.length = text.length
  val : ∀ i : Nat, st.dec[i]? = some true → st.buf[i]? = text[i]?
  zer : g.zero = true → ∀ i : Nat, st.dec[i]? = some false → st.buf[i]? = some 0
  lists : ∀ s r : Nat, L s → g.ix s = some r → ∃ l, st.fwd[r]? = some (some l)
  undec : ∀ s : Nat, U s → st.dec[s]? = some false → ∃ r, g.ix s = some r
  wait : ∀ s q : Nat, Waits g st s q → Pair text rank U s q ∧ (st.dec[s]? = some false ∨ Act s)

section
variable {text : List UInt8} {g : Cfg} {rank : Nat → Nat} {U L : Nat → Prop}

theorem Good.dec_cases {st : FB} {Act : Nat → Prop} (h : Good text g rank U L st Act) {i : Nat} (hi : i < text.length) :
    st.dec[i]? = some true ∨ st.dec[i]? = some false := by
  have : i < st.dec.length := by rw [h.dl]; exact hi
  rw [List.getElem?_eq_getElem this]
  cases st.dec[i] <;> simp

/-- number of undecoded positions -/
def undecN (st : FB) : Nat := st.dec.count false

theorem count_set_false {l : List Bool} {i : Nat} (h : l[i]? = some false) : (l.set i true).count false + 1 = l.count false := by
  induction l generalizing i with
  | nil => simp at h
  | cons a l ih =>
    cases i with
    | zero => simp at h; subst h; simp
    | succ i => simp at h; have := ih h; simp only [List.set_cons_succ, List.count_cons]; omega

theorem count_set_le (l : List Bool) (i : Nat) : (l.set i true).count false ≤ l.count false := by
  induction l generalizing i with
  | nil => simp
  | cons a l ih =>
    cases i with
    | zero => cases a <;> simp
    | succ i => have := ih i; simp only [List.set_cons_succ, List.count_cons]; omega

theorem set_true_get {l : List Bool} {i j : Nat} {b : Bool} (h : (l.set i true)[j]? = some b) :
    (j = i ∧ b = true) ∨ (j ≠ i ∧ l[j]? = some b) := by
  by_cases hj : j = i
  · subst hj
    rw [List.getElem?_set] at h
    simp only [if_true] at h
    split at h
    · left; exact ⟨rfl, by cases h; rfl⟩
    · cases h
  · right; refine ⟨hj, ?_⟩
    rwa [List.getElem?_set_ne (Ne.symm hj)] at h

theorem mark_good (hc : Ctx text g rank U L) {st : FB} {Act : Nat → Prop} (h : Good text g rank U L st Act) {pos : Nat} {c : UInt8}
    (hp : text[pos]? = some c) :
    ∃ st', st.mark pos c = .ok st' ∧ Good text g rank U L st' (fun s => Act s ∨ s = pos) ∧ st'.dec = st.dec.set pos true ∧
      st'.fwd = st.fwd ∧ st'.cursor = st.cursor := by
  have hlt : pos < text.length := (List.getElem?_eq_some_iff.mp hp).1
  refine ⟨{ st with buf := st.buf.set pos c, dec := st.dec.set pos true }, ?_, ?_, rfl, rfl, rfl⟩
  · rw [FB.mark, vset_ok _ (by rw [h.bl]; exact hlt)]
  · refine ⟨by simp [h.bl], by simp [h.dl], ?_, ?_, h.lists, ?_, ?_⟩
    · intro i hi
      show (st.buf.set pos c)[i]? = _
      rcases set_true_get hi with ⟨rfl, -⟩ | ⟨hne, hd⟩
      · rw [set_get_self _ (by rw [h.bl]; exact hlt), hp]
      · rw [List.getElem?_set_ne (Ne.symm hne)]; exact h.val i hd
    · intro hz i hi
      show (st.buf.set pos c)[i]? = _
      rcases set_true_get hi with ⟨rfl, h'⟩ | ⟨hne, hd⟩
      · cases h'
      · rw [List.getElem?_set_ne (Ne.symm hne)]; exact h.zer hz i hd
    · intro s hs hd
      rcases set_true_get hd with ⟨rfl, h'⟩ | ⟨hne, hd⟩
      · cases h'
      · exact h.undec s hs hd
    · intro s q hw
      obtain ⟨p1, p2⟩ := h.wait s q hw
      refine ⟨p1, ?_⟩
      by_cases hs : s = pos
      · exact Or.inr (Or.inr hs)
      · rcases p2 with p2 | p2
        · left; show (st.dec.set pos true)[s]? = _; rw [List.getElem?_set_ne (Ne.symm hs)]; exact p2
        · exact Or.inr (Or.inl p2)

/-- what a call keeps -/
structure Keeps (g : Cfg) (st st' : FB) (Act : Nat → Prop) : Prop where
  mono : ∀ i : Nat, st.dec[i]? = some true → st'.dec[i]? = some true
  cnt : undecN st' ≤ undecN st
  act : ∀ s r : Nat, Act s → g.ix s = some r → st'.fwd[r]? = st.fwd[r]?
  wt : ∀ s q : Nat, Waits g st s q → Waits g st' s q ∨ st'.dec[q]? = some true
  cur : st'.cursor = st.cursor

theorem Keeps.refl (st : FB) (Act : Nat → Prop) : Keeps g st st Act := ⟨fun _ h => h, Nat.le_refl _, fun _ _ _ _ => rfl, fun _ _ h => .inl h, rfl⟩

theorem Keeps.trans {a b c : FB} {Act : Nat → Prop} (h1 : Keeps g a b Act) (h2 : Keeps g b c Act) : Keeps g a c Act := by
  refine ⟨fun i h => h2.mono i (h1.mono i h), Nat.le_trans h2.cnt h1.cnt, ?_, ?_, h2.cur.trans h1.cur⟩
  · intro s r hs hr; rw [h2.act s r hs hr, h1.act s r hs hr]
  · intro s q h
    rcases h1.wt s q h with h | h
    · exact h2.wt s q h
    · exact Or.inr (h2.mono q h)

theorem decAt_spec (hc : Ctx text g rank U L) : ∀ (fuel : Nat) (st : FB) (Act : Nat → Prop) (pos : Nat) (c : UInt8),
    Good text g rank U L st Act → L pos → text[pos]? = some c → (∀ s, Act s → rank s < rank pos) → undecN st < fuel →
    ∃ st', decAt g fuel st pos c = .ok st' ∧ Good text g rank U L st' Act ∧ st'.dec[pos]? = some true ∧ Keeps g st st' Act := by
  intro fuel
  induction fuel with
  | zero => intro _ _ _ _ _ _ _ _ h; omega
  | succ fuel ih =>
    intro st Act pos c h hL hp hact hfuel
    have hlt : pos < text.length := (List.getElem?_eq_some_iff.mp hp).1
    have hna : ¬ Act pos := fun ha => Nat.lt_irrefl _ (hact pos ha)
    obtain ⟨st1, e1, g1, d1, f1, c1⟩ := mark_good hc h hp
    rw [decAt, e1]
    simp only
    have hd1 : st1.dec[pos]? = some true := by rw [d1]; exact set_get_self _ (by rw [h.dl]; exact hlt)
    have hmono1 : ∀ i : Nat, st.dec[i]? = some true → st1.dec[i]? = some true := by
      intro i hi
      rw [d1]
      by_cases hip : i = pos
      · subst hip; exact set_get_self _ (by rw [h.dl]; exact hlt)
      · rw [List.getElem?_set_ne (Ne.symm hip)]; exact hi
    have hcnt1 : undecN st1 ≤ undecN st := by unfold undecN; rw [d1]; exact count_set_le _ _
    cases hix : g.ix pos with
    | none =>
      refine ⟨st1, rfl, ?_, hd1, ⟨hmono1, hcnt1, fun _ _ _ _ => by rw [f1], ?_, c1⟩⟩
      · refine ⟨g1.bl, g1.dl, g1.val, g1.zer, g1.lists, g1.undec, ?_⟩
        intro s q hw
        obtain ⟨p1, p2⟩ := g1.wait s q hw
        refine ⟨p1, ?_⟩
        rcases p2 with p2 | p2 | rfl
        · exact Or.inl p2
        · exact Or.inr p2
        · obtain ⟨r, l, hr, -⟩ := hw; rw [hix] at hr; cases hr
      · intro s q hw; left; obtain ⟨r, l, a, b, d⟩ := hw; exact ⟨r, l, a, by rw [f1]; exact b, d⟩
    | some r =>
      obtain ⟨l, hl⟩ := g1.lists pos r hL hix
      have hb : st1.bucket r = .ok l := by rw [FB.bucket, vget_ok hl]
      simp only [hb]
      -- the loop
      have hloop : ∀ (l' : List Nat) (s1 : FB), (∀ q ∈ l', q ∈ l) → Good text g rank U L s1 (fun s => Act s ∨ s = pos) →
          undecN s1 ≤ undecN st1 →
          ∃ s2, l'.foldlM (fun st q => decAt g fuel st q c) s1 = .ok s2 ∧ Good text g rank U L s2 (fun s => Act s ∨ s = pos) ∧
            (∀ q ∈ l', s2.dec[q]? = some true) ∧ Keeps g s1 s2 (fun s => Act s ∨ s = pos) := by
        intro l'
        induction l' with
        | nil => intro s1 _ gs _; exact ⟨s1, rfl, gs, by simp, Keeps.refl _ _⟩
        | cons q l' ihl =>
          intro s1 hsub gs hcs
          have hql : q ∈ l := hsub q (by simp)
          obtain ⟨pr, hund⟩ := g1.wait pos q ⟨r, l, hix, hl, hql⟩
          -- `pos` was not decoded before
          have hfresh : st.dec[pos]? = some false := by
            rcases (h.wait pos q ⟨r, l, hix, by rw [← f1]; exact hl, hql⟩).2 with h' | h'
            · exact h'
            · exact absurd h' hna
          have hcnt : undecN st1 + 1 = undecN st := by unfold undecN; rw [d1]; exact count_set_false hfresh
          obtain ⟨s2, e2, gs2, dq, k2⟩ := ih s1 (fun s => Act s ∨ s = pos) q c gs (hc.ul q pr.uq) (by rw [← pr.eq]; exact hp) (by
            intro s hs
            rcases hs with hs | rfl
            · exact Nat.lt_trans (hact s hs) pr.lt
            · exact pr.lt) (by omega)
          obtain ⟨s3, e3, gs3, d3, k3⟩ := ihl s2 (fun q hq => hsub q (by simp [hq])) gs2 (Nat.le_trans k2.cnt hcs)
          refine ⟨s3, by rw [foldlM_cons_ok e2]; exact e3, gs3, ?_, k2.trans k3⟩
          intro x hx
          rcases List.mem_cons.mp hx with rfl | hx
          · exact k3.mono x dq
          · exact d3 x hx
      obtain ⟨st2, e2, g2, d2, k2⟩ := hloop l st1 (fun _ h => h) g1 (Nat.le_refl _)
      rw [e2]
      simp only
      have hfr : st2.fwd[r]? = some (some l) := by rw [k2.act pos r (Or.inr rfl) hix]; exact hl
      rw [if_pos hfr]
      have hrl : r < st2.fwd.length := (List.getElem?_eq_some_iff.mp hfr).1
      refine ⟨_, rfl, ?_, k2.mono pos hd1, ?_⟩
      · refine ⟨g2.bl, g2.dl, g2.val, g2.zer, ?_, g2.undec, ?_⟩
        · intro s r' hs hr'
          show ∃ l', (st2.fwd.set r (some []))[r']? = _
          by_cases hrr : r' = r
          · subst hrr; exact ⟨[], set_get_self _ hrl⟩
          · rw [List.getElem?_set_ne (Ne.symm hrr)]; exact g2.lists s r' hs hr'
        · intro s q hw
          obtain ⟨r', l', a, b, d⟩ := hw
          replace b : (st2.fwd.set r (some []))[r']? = some (some l') := b
          by_cases hrr : r' = r
          · subst hrr; rw [set_get_self _ hrl] at b; cases b; cases d
          · rw [List.getElem?_set_ne (Ne.symm hrr)] at b
            obtain ⟨p1, p2⟩ := g2.wait s q ⟨r', l', a, b, d⟩
            refine ⟨p1, ?_⟩
            rcases p2 with p2 | p2 | rfl
            · exact Or.inl p2
            · exact Or.inr p2
            · rw [hix] at a; cases a; exact absurd rfl hrr
      · refine ⟨fun i hi => k2.mono i (hmono1 i hi), Nat.le_trans k2.cnt hcnt1, ?_, ?_, k2.cur.trans c1⟩
        · intro s r' hs hr'
          show (st2.fwd.set r (some []))[r']? = _
          by_cases hrr : r' = r
          · subst hrr; rw [hc.inj s pos r' hr' hix] at hs; exact absurd hs hna
          · rw [List.getElem?_set_ne (Ne.symm hrr), k2.act s r' (Or.inl hs) hr', f1]
        · intro s q hw
          obtain ⟨r', l', a, b, d⟩ := hw
          rcases k2.wt s q ⟨r', l', a, by rw [f1]; exact b, d⟩ with hw2 | hd
          · obtain ⟨r2, l2, a2, b2, dd2⟩ := hw2
            by_cases hrr : r2 = r
            · subst hrr
              rw [hfr] at b2
              cases b2
              exact Or.inr (d2 q dd2)
            · left
              exact ⟨r2, l2, a2, by show (st2.fwd.set r (some []))[r2]? = _; rw [List.getElem?_set_ne (Ne.symm hrr)]; exact b2, dd2⟩
          · exact Or.inr hd

/-- no call is running -/
abbrev noAct : Nat → Prop := fun _ => False

theorem Good.isDec_eq (hc : Ctx text g rank U L) {st : FB} {Act : Nat → Prop} (h : Good text g rank U L st Act) {s : Nat} (hs : U s) {b : Bool}
    (hb : st.dec[s]? = some b) : st.isDec g s = .ok b := by
  have hlt := hc.ult s hs
  unfold FB.isDec
  split
  · rename_i hz
    cases b with
    | true =>
      have hv := h.val s hb
      have hn := hc.unz s hs hz
      rw [List.getElem?_eq_getElem hlt] at hv hn
      rw [vget_ok hv]
      simp only [decide_not]
      simp at hn
      simp [hn]
    | false => rw [vget_ok (h.zer hz s hb)]; simp
  · exact vget_ok hb

theorem push_spec (hc : Ctx text g rank U L) {st : FB} {s q : Nat} (h : Good text g rank U L st noAct) (pr : Pair text rank U s q)
    (hs : st.dec[s]? = some false) :
    ∃ st', st.push g s q = .ok st' ∧ Good text g rank U L st' noAct ∧ Keeps g st st' noAct ∧ Waits g st' s q := by
  obtain ⟨r, hr⟩ := h.undec s pr.us hs
  obtain ⟨l, hl⟩ := h.lists s r (hc.ul s pr.us) hr
  have hrl : r < st.fwd.length := (List.getElem?_eq_some_iff.mp hl).1
  refine ⟨{ st with fwd := st.fwd.set r (some (g.ins l q)) }, ?_, ?_, ?_, ?_⟩
  · unfold FB.push FB.bucket
    simp only [hr, vget_ok hl]
  · refine ⟨h.bl, h.dl, h.val, h.zer, ?_, h.undec, ?_⟩
    · intro s' r' hs' hr'
      show ∃ l', (st.fwd.set r (some (g.ins l q)))[r']? = _
      by_cases hrr : r' = r
      · subst hrr; exact ⟨_, set_get_self _ hrl⟩
      · rw [List.getElem?_set_ne (Ne.symm hrr)]; exact h.lists s' r' hs' hr'
    · intro s' q' hw
      obtain ⟨r', l', a, b, d⟩ := hw
      replace b : (st.fwd.set r (some (g.ins l q)))[r']? = some (some l') := b
      by_cases hrr : r' = r
      · subst hrr
        rw [set_get_self _ hrl] at b
        cases b
        obtain rfl := hc.inj s' s r' a hr
        rcases (hc.mem l q q').mp d with d | rfl
        · exact h.wait s' q' ⟨r', l, a, hl, d⟩
        · exact ⟨pr, Or.inl hs⟩
      · rw [List.getElem?_set_ne (Ne.symm hrr)] at b
        exact h.wait s' q' ⟨r', l', a, b, d⟩
  · refine ⟨fun _ h => h, Nat.le_refl _, fun _ _ h => h.elim, ?_, rfl⟩
    intro s' q' hw
    left
    obtain ⟨r', l', a, b, d⟩ := hw
    by_cases hrr : r' = r
    · subst hrr
      rw [hl] at b
      cases b
      exact ⟨r', _, a, set_get_self _ hrl, (hc.mem l q q').mpr (Or.inl d)⟩
    · exact ⟨r', l', a, by show (st.fwd.set r (some (g.ins l q)))[r']? = _; rw [List.getElem?_set_ne (Ne.symm hrr)]; exact b, d⟩
  · exact ⟨r, _, hr, set_get_self _ hrl, (hc.mem l q q).mpr (Or.inr rfl)⟩

theorem undec_lt {st : FB} {Act : Nat → Prop} (h : Good text g rank U L st Act) : undecN st < st.buf.length + 1 := by
  unfold undecN
  have : st.dec.count false ≤ st.dec.length := List.count_le_length
  rw [h.dl] at this
  rw [h.bl]
  omega

theorem copy1_spec (hc : Ctx text g rank U L) {st : FB} {s q : Nat} (h : Good text g rank U L st noAct) (pr : Pair text rank U s q) :
    ∃ st', st.copy1 g s q = .ok st' ∧ Good text g rank U L st' noAct ∧ Keeps g st st' noAct ∧
      (st'.dec[q]? = some true ∨ Waits g st' s q) := by
  have hlt := hc.ult s pr.us
  unfold FB.copy1
  rcases h.dec_cases hlt with hd | hd
  · rw [h.isDec_eq hc pr.us hd]
    simp only
    have hv := h.val s hd
    rw [List.getElem?_eq_getElem hlt] at hv
    rw [vget_ok hv]
    simp only
    obtain ⟨st', e, g', d', k'⟩ := decAt_spec hc (st.buf.length + 1) st noAct q text[s] h (hc.ul q pr.uq)
      (by rw [← pr.eq]; exact List.getElem?_eq_getElem hlt) (fun _ h => h.elim) (undec_lt h)
    exact ⟨st', e, g', k', Or.inl d'⟩
  · rw [h.isDec_eq hc pr.us hd]
    simp only
    obtain ⟨st', e, g', k', w⟩ := push_spec hc h pr hd
    exact ⟨st', e, g', k', Or.inr w⟩

/-- `q` is decoded or waits for a legal source -/
def Settled (g : Cfg) (st : FB) (q : Nat) : Prop := st.dec[q]? = some true ∨ ∃ s, Waits g st s q

theorem Settled.keeps {st st' : FB} {Act : Nat → Prop} {q : Nat} (h : Settled g st q) (k : Keeps g st st' Act) : Settled g st' q := by
  rcases h with h | ⟨s, h⟩
  · exact Or.inl (k.mono q h)
  · rcases k.wt s q h with h | h
    · exact Or.inr ⟨s, h⟩
    · exact Or.inl h

theorem copyN_spec (hc : Ctx text g rank U L) (n : Nat) : ∀ (st : FB) (src t : Nat), Good text g rank U L st noAct →
    (∀ k, k < n → Pair text rank U (src + k) (t + k)) →
    ∃ st', st.copyN g src t n = .ok st' ∧ Good text g rank U L st' noAct ∧ Keeps g st st' noAct ∧ ∀ k, k < n → Settled g st' (t + k) := by
  induction n with
  | zero => intro st src t h _; exact ⟨st, rfl, h, Keeps.refl _ _, by intro k hk; omega⟩
  | succ n ih =>
    intro st src t h hp
    obtain ⟨st1, e1, g1, k1, w1⟩ := copy1_spec hc h (hp 0 (by omega))
    obtain ⟨st2, e2, g2, k2, w2⟩ := ih st1 (src + 1) (t + 1) g1 (by
      intro k hk
      have := hp (k + 1) (by omega)
      rwa [show src + 1 + k = src + (k + 1) by omega, show t + 1 + k = t + (k + 1) by omega])
    refine ⟨st2, ?_, g2, k1.trans k2, ?_⟩
    · rw [FB.copyN]
      simp only [Nat.add_zero] at e1
      rw [e1]
      exact e2
    · intro k hk
      cases k with
      | zero =>
        have : Settled g st1 t := by
          rcases w1 with h | h
          · exact Or.inl h
          · exact Or.inr ⟨_, h⟩
        exact this.keeps k2
      | succ k => have := w2 k (by omega); rwa [show t + 1 + k = t + (k + 1) by omega] at this

/-- once every position is settled, every position is decoded -/
theorem Good.complete (hc : Ctx text g rank U L) {st : FB} (h : Good text g rank U L st noAct) (hs : ∀ q, q < text.length → Settled g st q) :
    st.buf = text := by
  have key : ∀ r q, rank q < r → q < text.length → st.dec[q]? = some true := by
    intro r
    induction r with
    | zero => intro q h; omega
    | succ r ih =>
      intro q hr hq
      rcases hs q hq with h1 | ⟨s, w⟩
      · exact h1
      · obtain ⟨pr, hd⟩ := h.wait s q w
        have h2 := ih s (by have := pr.lt; omega) (hc.ult s pr.us)
        rcases hd with hd | hd
        · rw [h2] at hd; cases hd
        · exact hd.elim
  apply List.ext_getElem? 
  intro i
  by_cases hi : i < text.length
  · exact h.val i (key _ i (Nat.lt_succ_self _) hi)
  · rw [List.getElem?_eq_none (by rw [h.bl]; omega), List.getElem?_eq_none (by omega)]

end


/-! ### The buffers with waiting lists -/

/-- positions that may be copied: in the text, and not null if null means "not decoded" -/
def Usable (text : List UInt8) (zero : Bool) (i : Nat) : Prop := i < text.length ∧ (zero = true → text[i]? ≠ some 0)

theorem pair_of {text : List UInt8} {zero : Bool} {rank : Nat → Nat} {f : Factor}
    (hlen : f.pos + f.len ≤ text.length)
    (heq : ∀ k, k < f.len → text[f.src + k]? = text[f.pos + k]?) (hr : ∀ k, k < f.len → rank (f.src + k) < rank (f.pos + k))
    (hz : zero = true → ∀ k, k < f.len → text[f.pos + k]? ≠ some 0) :
    ∀ k, k < f.len → Pair text rank (Usable text zero) (f.src + k) (f.pos + k) := by
  intro k hk
  have h1 : f.pos + k < text.length := by omega
  refine ⟨⟨?_, ?_⟩, ⟨h1, fun z => hz z k hk⟩, heq k hk, hr k hk⟩
  · have := heq k hk
    rw [List.getElem?_eq_getElem h1] at this
    exact (List.getElem?_eq_some_iff.mp this).1
  · intro z; rw [heq k hk]; exact hz z k hk

theorem ctx_direct (text : List UInt8) (zero : Bool) (rank : Nat → Nat) :
    Ctx text (cfgDirect zero) rank (Usable text zero) (· < text.length) := by
  refine ⟨?_, ?_, fun i h => h.1, fun i h z => h.2 z, fun i h => h.1⟩
  · intro s s' r h h'; cases h; cases h'; rfl
  · intro l q x; simp [cfgDirect]

theorem good_init (text : List UInt8) (zero : Bool) (rank : Nat → Nat) :
    Good text (cfgDirect zero) rank (Usable text zero) (· < text.length) (FB.init text.length) noAct := by
  have hrep : ∀ {α : Type} {n i : Nat} {a b : α}, (List.replicate n a)[i]? = some b → b = a := by
    intro α n i a b h
    rw [List.getElem?_replicate] at h
    split at h
    · cases h; rfl
    · cases h
  refine ⟨by simp [FB.init], by simp [FB.init], ?_, ?_, ?_, ?_, ?_⟩
  · intro i h; have := hrep h; cases this
  · intro _ i h
    have : i < text.length := by
      have := (List.getElem?_eq_some_iff.mp h).1; simpa [FB.init] using this
    show (List.replicate text.length (0 : UInt8))[i]? = _
    rw [List.getElem?_replicate, if_pos this]
  · intro s r hs hr
    cases hr
    exact ⟨[], by show (List.replicate text.length (some []))[s]? = _; rw [List.getElem?_replicate, if_pos hs]⟩
  · intro s hs _; exact ⟨s, rfl⟩
  · rintro s q ⟨r, l, a, b, d⟩
    have := hrep b
    cases this
    cases d

section
variable {text : List UInt8} {g : Cfg} {rank : Nat → Nat} {U L : Nat → Prop}

theorem Good.cursor {st : FB} {Act : Nat → Prop} (h : Good text g rank U L st Act) (c : Nat) : Good text g rank U L { st with cursor := c } Act :=
  ⟨h.bl, h.dl, h.val, h.zer, h.lists, h.undec, h.wait⟩

theorem direct_lits (hc : Ctx text g rank U L) (hL : ∀ i, i < text.length → L i) (m : Nat) : ∀ (p : Nat) (st : FB), p + m ≤ text.length →
    Good text g rank U L st noAct → st.cursor = p → (∀ q, q < p → Settled g st q) →
    ∃ st', (((text.drop p).take m).map DecOp.lit).foldlM (FB.op g) st = .ok st' ∧ Good text g rank U L st' noAct ∧ st'.cursor = p + m ∧
      ∀ q, q < p + m → Settled g st' q := by
  induction m with
  | zero => intro p st _ h hcur hset; exact ⟨st, by simp [List.foldlM, pure, Except.pure], h, by omega, hset⟩
  | succ m ih =>
    intro p st hp h hcur hset
    have hlt : p < text.length := by omega
    rw [List.drop_eq_getElem_cons hlt, List.take_succ_cons, List.map_cons]
    obtain ⟨st1, e1, g1, d1, k1⟩ := decAt_spec hc (st.buf.length + 1) st noAct p text[p] h (hL p hlt) (List.getElem?_eq_getElem hlt)
      (fun _ h => h.elim) (undec_lt h)
    have e : st.op g (.lit text[p]) = .ok { st1 with cursor := st1.cursor + 1 } := by
      rw [FB.op, hcur]
      simp only [FB.decAt, e1]
    rw [foldlM_cons_ok e]
    have hk : st1.cursor = p := by rw [k1.cur, hcur]
    obtain ⟨st2, e2, g2, c2, s2⟩ := ih (p + 1) { st1 with cursor := st1.cursor + 1 } (by omega) (g1.cursor _) (by simp [hk]) (by
      intro q hq
      by_cases hqp : q = p
      · subst hqp; exact Or.inl d1
      · have : Settled g st1 q := (hset q (by omega)).keeps k1
        exact this)
    exact ⟨st2, e2, g2, by omega, fun q hq => s2 q (by omega)⟩

theorem direct_ops (hc : Ctx text g rank U L) (hL : ∀ i, i < text.length → L i) (fs : List Factor) : ∀ (p : Nat) (st : FB),
    FactorsOrdered text.length p fs → (∀ f ∈ fs, ∀ k, k < f.len → Pair text rank U (f.src + k) (f.pos + k)) →
    Good text g rank U L st noAct → st.cursor = p → (∀ q, q < p → Settled g st q) →
    ∃ st', (opsFrom text fs p).foldlM (FB.op g) st = .ok st' ∧ Good text g rank U L st' noAct ∧ ∀ q, q < text.length → Settled g st' q := by
  induction fs with
  | nil =>
    intro p st ho _ h hcur hset
    have hp : p ≤ text.length := ho
    obtain ⟨st', e, g', c', s'⟩ := direct_lits hc hL (text.length - p) p st (by omega) h hcur hset
    rw [List.take_of_length_le (by simp)] at e
    exact ⟨st', e, g', fun q hq => s' q (by omega)⟩
  | cons f fs ih =>
    intro p st ho hp h hcur hset
    obtain ⟨h1, h2, h3, h4⟩ := ho
    obtain ⟨st1, e1, g1, c1, s1⟩ := direct_lits hc hL (f.pos - p) p st (by omega) h hcur hset
    rw [opsFrom, foldlM_append_ok e1]
    have hpp : p + (f.pos - p) = f.pos := by omega
    rw [hpp] at c1 s1
    obtain ⟨st2, e2, g2, k2, s2⟩ := copyN_spec hc f.len st1 f.src f.pos g1 (hp f (by simp))
    have e : st1.op g (.fac f.src f.len) = .ok { st2 with cursor := st2.cursor + f.len } := by
      rw [FB.op, c1, e2]
    rw [foldlM_cons_ok e]
    refine ih (f.pos + f.len) _ h4 (fun f' hf' => hp f' (by simp [hf'])) (g2.cursor _) (by show st2.cursor + f.len = _; rw [k2.cur, c1]) ?_
    intro q hq
    have : Settled g st2 q := by
      by_cases hqp : q < f.pos
      · exact (s1 q hqp).keeps k2
      · have := s2 (q - f.pos) (by omega); rwa [show f.pos + (q - f.pos) = q by omega] at this
    exact this

end

theorem FactorsOrdered.end_le {n : Nat} (fs : List Factor) : ∀ p, FactorsOrdered n p fs → ∀ f ∈ fs, f.pos + f.len ≤ n := by
  induction fs with
  | nil => intro p _ f hf; simp at hf
  | cons f fs ih =>
    intro p h f' hf'
    rcases List.mem_cons.mp hf' with rfl | hf'
    · exact h.2.2.1
    · exact ih _ h.2.2.2 f' hf'

theorem pairs_of {text : List UInt8} {zero : Bool} {fs : List Factor} (ho : FactorsOrdered text.length 0 fs) (hr : Resolvable text fs)
    (hz : zero = true → ∀ f ∈ fs, ∀ k, k < f.len → text[f.pos + k]? ≠ some 0) :
    ∃ rank : Nat → Nat, ∀ f ∈ fs, ∀ k, k < f.len → Pair text rank (Usable text zero) (f.src + k) (f.pos + k) := by
  obtain ⟨rank, hrank⟩ := hr.acyclic
  exact ⟨rank, fun f hf => pair_of (FactorsOrdered.end_le fs 0 ho f hf) (hr.eq f hf) (hrank f hf) (fun z => hz z f hf)⟩

theorem runDirect_spec (zero : Bool) {text : List UInt8} {fs : List Factor} (ho : FactorsOrdered text.length 0 fs) (hr : Resolvable text fs)
    (hz : zero = true → ∀ f ∈ fs, ∀ k, k < f.len → text[f.pos + k]? ≠ some 0) :
    runDirect zero text.length (opsFrom text fs 0) = .ok text := by
  obtain ⟨rank, hp⟩ := pairs_of ho hr hz
  obtain ⟨st, e, g', s⟩ := direct_ops (ctx_direct text zero rank) (fun _ h => h) fs 0 (FB.init text.length) ho hp
    (good_init text zero rank) rfl (by intro q hq; omega)
  rw [runDirect, e]
  simp only
  rw [g'.complete (ctx_direct text zero rank) s]

/-- in a text whose only null is at the end, no factor covers a null -/
theorem no_null {text : List UInt8} {fs : List Factor} (hs : Sentinel text) (ho : FactorsOrdered text.length 0 fs) (hr : Resolvable text fs) :
    ∀ f ∈ fs, ∀ k, k < f.len → text[f.pos + k]? ≠ some 0 := by
  intro f hf k hk h0
  have hend := FactorsOrdered.end_le fs 0 ho f hf
  have h1 : f.pos + k = text.length - 1 := by
    by_contra hne
    exact hs.ne_zero (i := f.pos + k) (by omega) h0
  have h0' := h0
  rw [← hr.eq f hf k hk] at h0'
  have hlt := (List.getElem?_eq_some_iff.mp h0').1
  have h2 : f.src + k = text.length - 1 := by
    by_contra hne
    exact hs.ne_zero (i := f.src + k) (by omega) h0'
  obtain ⟨rank, hrank⟩ := hr.acyclic
  have := hrank f hf k hk
  rw [h1, h2] at this
  omega

/-! ### The buffers that copy first -/

/-- covered by a factor -/
def Tgt (fs : List Factor) (q : Nat) : Prop := ∃ f ∈ fs, f.pos ≤ q ∧ q < f.pos + f.len

/-- the source of a covered position -/
def srcPos (fs : List Factor) (q : Nat) : Nat :=
  match fs.find? (fun f => decide (f.pos ≤ q ∧ q < f.pos + f.len)) with
  | some f => f.src + (q - f.pos)
  | none => q

theorem FactorsOrdered.pos_ge {n : Nat} (fs : List Factor) : ∀ p, FactorsOrdered n p fs → ∀ f ∈ fs, p ≤ f.pos := by
  induction fs with
  | nil => intro p _ f hf; simp at hf
  | cons f fs ih =>
    intro p h f' hf'
    rcases List.mem_cons.mp hf' with rfl | hf'
    · exact h.1
    · have := ih _ h.2.2.2 f' hf'; have := h.1; omega

theorem FactorsOrdered.unique {n : Nat} (fs : List Factor) : ∀ p, FactorsOrdered n p fs → ∀ f ∈ fs, ∀ f' ∈ fs, ∀ q : Nat,
    f.pos ≤ q → q < f.pos + f.len → f'.pos ≤ q → q < f'.pos + f'.len → f = f' := by
  induction fs with
  | nil => intro p _ f hf; simp at hf
  | cons g fs ih =>
    intro p h f hf f' hf' q h1 h2 h3 h4
    have hge := FactorsOrdered.pos_ge fs _ h.2.2.2
    rcases List.mem_cons.mp hf with hfe | hfm <;> rcases List.mem_cons.mp hf' with hfe' | hfm'
    · rw [hfe, hfe']
    · subst hfe; have := hge f' hfm'; omega
    · subst hfe'; have := hge f hfm; omega
    · exact ih _ h.2.2.2 f hfm f' hfm' q h1 h2 h3 h4

theorem srcPos_eq {n : Nat} {fs : List Factor} (ho : FactorsOrdered n 0 fs) {f : Factor} (hf : f ∈ fs) {k : Nat} (hk : k < f.len) :
    srcPos fs (f.pos + k) = f.src + k := by
  unfold srcPos
  split
  · rename_i f' hf'
    have h1 := List.find?_some hf'
    have h2 := List.mem_of_find?_eq_some hf'
    simp only [decide_eq_true_eq] at h1
    obtain rfl := FactorsOrdered.unique fs 0 ho f hf f' h2 (f.pos + k) (by omega) (by omega) h1.1 h1.2
    omega
  · rename_i h
    rw [List.find?_eq_none] at h
    have := h f hf
    simp at this
    omega

structure SInv (text : List UInt8) (zero : Bool) (fs : List Factor) (st : SB) : Prop where
  bl : st.buf.length = text.length
  dl : st.dec.length = text.length
  val : ∀ i : Nat, st.dec[i]? = some true → st.buf[i]? = text[i]?
  zer : zero = true → ∀ i : Nat, st.dec[i]? = some false → st.buf[i]? = some 0
  back : ∀ q : Nat, Tgt fs q → st.dec[q]? = some true → st.dec[srcPos fs q]? = some true
  pairs : ∀ e ∈ st.stored, ∀ k : Nat, k < e.2.2 → Tgt fs (e.1 + k) ∧ srcPos fs (e.1 + k) = e.2.1 + k

/-- decoded, or part of a stored factor -/
def SSettled (st : SB) (q : Nat) : Prop := st.dec[q]? = some true ∨ ∃ e ∈ st.stored, ∃ k, k < e.2.2 ∧ q = e.1 + k

section
variable {text : List UInt8} {zero : Bool} {fs : List Factor} {rank : Nat → Nat}

theorem SInv.dec_cases {st : SB} (h : SInv text zero fs st) {i : Nat} (hi : i < text.length) :
    st.dec[i]? = some true ∨ st.dec[i]? = some false := by
  have : i < st.dec.length := by rw [h.dl]; exact hi
  rw [List.getElem?_eq_getElem this]
  cases st.dec[i] <;> simp

theorem SInv.isDec_eq {st : SB} (h : SInv text zero fs st) {s : Nat} (hs : Usable text zero s) {b : Bool} (hb : st.dec[s]? = some b) :
    st.isDec zero s = .ok b := by
  have hlt := hs.1
  unfold SB.isDec
  split
  · rename_i hz
    cases b with
    | true =>
      have hv := h.val s hb
      have hn := hs.2 hz
      rw [List.getElem?_eq_getElem hlt] at hv hn
      rw [vget_ok hv]
      simp only [decide_not]
      simp at hn
      simp [hn]
    | false => rw [vget_ok (h.zer hz s hb)]; simp
  · exact vget_ok hb

/-- writing the right character at a position whose source (if any) is decoded -/
theorem SInv.write {st : SB} (h : SInv text zero fs st) {pos : Nat} {c : UInt8} (hp : text[pos]? = some c)
    (hb : Tgt fs pos → srcPos fs pos ≠ pos → st.dec[srcPos fs pos]? = some true) :
    SInv text zero fs { st with buf := st.buf.set pos c, dec := st.dec.set pos true } := by
  have hlt : pos < text.length := (List.getElem?_eq_some_iff.mp hp).1
  have hm : ∀ i : Nat, st.dec[i]? = some true → (st.dec.set pos true)[i]? = some true := by
    intro i hi
    by_cases hip : i = pos
    · subst hip; exact set_get_self _ (by rw [h.dl]; exact hlt)
    · rw [List.getElem?_set_ne (Ne.symm hip)]; exact hi
  refine ⟨by simp [h.bl], by simp [h.dl], ?_, ?_, ?_, h.pairs⟩
  · intro i hi
    show (st.buf.set pos c)[i]? = _
    rcases set_true_get hi with ⟨rfl, -⟩ | ⟨hne, hd⟩
    · rw [set_get_self _ (by rw [h.bl]; exact hlt), hp]
    · rw [List.getElem?_set_ne (Ne.symm hne)]; exact h.val i hd
  · intro hz i hi
    show (st.buf.set pos c)[i]? = _
    rcases set_true_get hi with ⟨rfl, h'⟩ | ⟨hne, hd⟩
    · cases h'
    · rw [List.getElem?_set_ne (Ne.symm hne)]; exact h.zer hz i hd
  · intro q hq hd
    show (st.dec.set pos true)[srcPos fs q]? = _
    by_cases hself : srcPos fs q = q
    · rw [hself]; exact hd
    · rcases set_true_get hd with ⟨rfl, -⟩ | ⟨hne, hd⟩
      · exact hm _ (hb hq hself)
      · exact hm _ (h.back q hq hd)

/-- relation of the states before and after -/
structure SKeeps (st st' : SB) : Prop where
  mono : ∀ i : Nat, st.dec[i]? = some true → st'.dec[i]? = some true
  sub : ∀ e ∈ st.stored, e ∈ st'.stored

theorem SKeeps.refl (st : SB) : SKeeps st st := ⟨fun _ h => h, fun _ h => h⟩
theorem SKeeps.trans {a b c : SB} (h : SKeeps a b) (h' : SKeeps b c) : SKeeps a c :=
  ⟨fun i x => h'.mono i (h.mono i x), fun e x => h'.sub e (h.sub e x)⟩

theorem SSettled.keeps {st st' : SB} {q : Nat} (h : SSettled st q) (k : SKeeps st st') : SSettled st' q := by
  rcases h with h | ⟨e, he, h⟩
  · exact Or.inl (k.mono q h)
  · exact Or.inr ⟨e, k.sub e he, h⟩

theorem dec_set_mono {l : List Bool} (pos : Nat) (i : Nat) (hi : l[i]? = some true) : (l.set pos true)[i]? = some true := by
  by_cases hip : i = pos
  · subst hip; exact set_get_self _ (List.getElem?_eq_some_iff.mp hi).1
  · rw [List.getElem?_set_ne (Ne.symm hip)]; exact hi

theorem move_spec {st : SB} (h : SInv text zero fs st) (hT : ∀ q, Tgt fs q → Pair text rank (Usable text zero) (srcPos fs q) q) {q : Nat}
    (hq : Tgt fs q) (hd : st.dec[srcPos fs q]? = some true) :
    ∃ st', st.move (srcPos fs q) q = .ok st' ∧ SInv text zero fs st' ∧ SKeeps st st' ∧ st'.dec[q]? = some true ∧ st'.cursor = st.cursor ∧
      st'.stored = st.stored := by
  have pr := hT q hq
  have hlt := pr.us.1
  have hv := h.val _ hd
  rw [List.getElem?_eq_getElem hlt] at hv
  have hq' := pr.eq
  rw [List.getElem?_eq_getElem hlt] at hq'
  refine ⟨_, ?_, h.write hq'.symm (fun _ _ => hd), ⟨fun i hi => dec_set_mono _ i hi, fun _ h => h⟩,
    set_get_self _ (by rw [h.dl]; exact pr.uq.1), rfl, rfl⟩
  rw [SB.move, vget_ok hv]
  simp only
  rw [vset_ok _ (by rw [h.bl]; exact pr.uq.1)]

theorem lit_spec {st : SB} (h : SInv text zero fs st) {c : UInt8} (hp : text[st.cursor]? = some c) (hn : ¬ Tgt fs st.cursor) :
    ∃ st', st.lit c = .ok st' ∧ SInv text zero fs st' ∧ SKeeps st st' ∧ st'.dec[st.cursor]? = some true ∧ st'.cursor = st.cursor + 1 := by
  have hlt := (List.getElem?_eq_some_iff.mp hp).1
  have hw := h.write hp (fun ht => absurd ht hn)
  refine ⟨{ st with buf := st.buf.set st.cursor c, dec := st.dec.set st.cursor true, cursor := st.cursor + 1 }, ?_,
    ⟨hw.bl, hw.dl, hw.val, hw.zer, hw.back, hw.pairs⟩, ⟨fun i hi => dec_set_mono _ i hi, fun _ h => h⟩, set_get_self _ (by rw [h.dl]; exact hlt), rfl⟩
  rw [SB.lit, vset_ok _ (by rw [h.bl]; exact hlt)]

theorem SInv.cursor {st : SB} (h : SInv text zero fs st) (c : Nat) : SInv text zero fs { st with cursor := c } :=
  ⟨h.bl, h.dl, h.val, h.zer, h.back, h.pairs⟩

theorem facLoop_spec (hT : ∀ q, Tgt fs q → Pair text rank (Usable text zero) (srcPos fs q) q) (n : Nat) : ∀ (flag : Bool) (st : SB) (src : Nat),
    SInv text zero fs st → (∀ j, j < n → Tgt fs (st.cursor + j) ∧ srcPos fs (st.cursor + j) = src + j) →
    (flag = true → ∀ j, j < n → ∃ e ∈ st.stored, ∃ k, k < e.2.2 ∧ st.cursor + j = e.1 + k) →
    ∃ st', SB.facLoop zero flag st src n = .ok st' ∧ SInv text zero fs st' ∧ SKeeps st st' ∧ st'.cursor = st.cursor + n ∧
      ∀ j, j < n → SSettled st' (st.cursor + j) := by
  induction n with
  | zero => intro flag st src h _ _; exact ⟨st, by rw [SB.facLoop], h, SKeeps.refl _, rfl, by intro j hj; omega⟩
  | succ n ih =>
    intro flag st src h hp hf
    obtain ⟨hq, hsq⟩ := hp 0 (by omega)
    simp only [Nat.add_zero] at hq hsq
    have pr := hT _ hq
    rw [hsq] at pr
    have hp' : ∀ j, j < n → Tgt fs (st.cursor + 1 + j) ∧ srcPos fs (st.cursor + 1 + j) = src + 1 + j := by
      intro j hj
      have := hp (j + 1) (by omega)
      rwa [show st.cursor + 1 + j = st.cursor + (j + 1) by omega, show src + 1 + j = src + (j + 1) by omega]
    rw [SB.facLoop]
    rcases h.dec_cases pr.us.1 with hd | hd
    · rw [h.isDec_eq pr.us hd]
      simp only
      obtain ⟨st1, e1, g1, k1, d1, c1, s1⟩ := move_spec h hT hq (by rw [hsq]; exact hd)
      rw [hsq] at e1
      simp only [e1]
      obtain ⟨st2, e2, g2, k2, c2, s2⟩ := ih flag { st1 with cursor := st1.cursor + 1 } (src + 1) (g1.cursor _)
        (by show ∀ j, j < n → Tgt fs (st1.cursor + 1 + j) ∧ _; rw [c1]; exact hp') (by
          intro hfl j hj
          obtain ⟨e, he, k, hk, hek⟩ := hf hfl (j + 1) (by omega)
          exact ⟨e, by show e ∈ st1.stored; rw [s1]; exact he, k, hk, by show st1.cursor + 1 + j = _; rw [c1]; omega⟩)
      have k2' : SKeeps st1 st2 := ⟨k2.mono, k2.sub⟩
      refine ⟨st2, e2, g2, k1.trans k2', by rw [c2]; show st1.cursor + 1 + n = _; omega, ?_⟩
      intro j hj
      cases j with
      | zero => exact Or.inl (k2.mono _ d1)
      | succ j =>
        have := s2 j (by omega)
        have hc : st1.cursor + 1 + j = st.cursor + (j + 1) := by omega
        rw [← hc]
        exact this
    · rw [h.isDec_eq pr.us hd]
      simp only
      cases flag with
      | true =>
        simp only [if_true]
        obtain ⟨st2, e2, g2, k2, c2, s2⟩ := ih true { st with cursor := st.cursor + 1 } (src + 1) (h.cursor _) hp' (by
          intro hfl j hj
          obtain ⟨e, he, k, hk, hek⟩ := hf hfl (j + 1) (by omega)
          exact ⟨e, he, k, hk, by show st.cursor + 1 + j = _; omega⟩)
        have k2' : SKeeps st st2 := ⟨k2.mono, k2.sub⟩
        refine ⟨st2, e2, g2, k2', by rw [c2]; show st.cursor + 1 + n = _; omega, ?_⟩
        intro j hj
        cases j with
        | zero =>
          obtain ⟨e, he, x⟩ := hf rfl 0 (by omega)
          exact Or.inr ⟨e, k2.sub e he, x⟩
        | succ j =>
          have := s2 j (by omega)
          have hc : st.cursor + 1 + j = st.cursor + (j + 1) := by omega
          rw [← hc]
          exact this
      | false =>
        simp only [Bool.false_eq_true, if_false]
        obtain ⟨st2, e2, g2, k2, c2, s2⟩ := ih true { st with cursor := st.cursor + 1, stored := st.stored ++ [(st.cursor, src, n + 1)] } (src + 1)
          ⟨h.bl, h.dl, h.val, h.zer, h.back, by
            intro e he k hk
            rcases List.mem_append.mp he with he | he
            · exact h.pairs e he k hk
            · simp only [List.mem_singleton] at he
              subst he
              exact hp k hk⟩ hp' (by
          intro _ j hj
          exact ⟨(st.cursor, src, n + 1), by simp, j + 1, by show j + 1 < n + 1; omega, by show st.cursor + 1 + j = st.cursor + (j + 1); omega⟩)
        have k2' : SKeeps st st2 := ⟨k2.mono, fun e he => k2.sub e (by simp [he])⟩
        refine ⟨st2, e2, g2, k2', by rw [c2]; show st.cursor + 1 + n = _; omega, ?_⟩
        intro j hj
        exact Or.inr ⟨(st.cursor, src, n + 1), k2.sub _ (by simp), j, hj, rfl⟩

theorem scan_lits (m : Nat) : ∀ (p : Nat) (st : SB), p + m ≤ text.length → (∀ q, p ≤ q → q < p + m → ¬ Tgt fs q) →
    SInv text zero fs st → st.cursor = p → (∀ q, q < p → SSettled st q) →
    ∃ st', (((text.drop p).take m).map DecOp.lit).foldlM (SB.op zero) st = .ok st' ∧ SInv text zero fs st' ∧ st'.cursor = p + m ∧
      ∀ q, q < p + m → SSettled st' q := by
  induction m with
  | zero => intro p st _ _ h hcur hset; exact ⟨st, by simp [List.foldlM, pure, Except.pure], h, by omega, hset⟩
  | succ m ih =>
    intro p st hp hn h hcur hset
    have hlt : p < text.length := by omega
    rw [List.drop_eq_getElem_cons hlt, List.take_succ_cons, List.map_cons]
    obtain ⟨st1, e1, g1, k1, d1, c1⟩ := lit_spec h (c := text[p]) (by rw [hcur]; exact List.getElem?_eq_getElem hlt)
      (by rw [hcur]; exact hn p (Nat.le_refl _) (by omega))
    have e : st.op zero (.lit text[p]) = .ok st1 := by rw [SB.op, e1]
    rw [foldlM_cons_ok e]
    obtain ⟨st2, e2, g2, c2, s2⟩ := ih (p + 1) st1 (by omega) (fun q h1 h2 => hn q (by omega) (by omega)) g1 (by omega) (by
      intro q hq
      by_cases hqp : q = p
      · subst hqp; exact Or.inl (by rw [← hcur]; exact d1)
      · exact (hset q (by omega)).keeps k1)
    exact ⟨st2, e2, g2, by omega, fun q hq => s2 q (by omega)⟩

theorem scan_ops (ho0 : FactorsOrdered text.length 0 fs) (hT : ∀ q, Tgt fs q → Pair text rank (Usable text zero) (srcPos fs q) q)
    (rem : List Factor) : ∀ (p : Nat) (st : SB), FactorsOrdered text.length p rem → (∀ f ∈ rem, f ∈ fs) →
    (∀ f ∈ fs, p < f.pos + f.len → f ∈ rem) → SInv text zero fs st → st.cursor = p → (∀ q, q < p → SSettled st q) →
    ∃ st', (opsFrom text rem p).foldlM (SB.op zero) st = .ok st' ∧ SInv text zero fs st' ∧ ∀ q, q < text.length → SSettled st' q := by
  induction rem with
  | nil =>
    intro p st ho _ hrem h hcur hset
    have hp : p ≤ text.length := ho
    obtain ⟨st', e, g', c', s'⟩ := scan_lits (fs := fs) (zero := zero) (text.length - p) p st (by omega) (by
      rintro q hq - ⟨f, hf, h1, h2⟩
      have := hrem f hf (by omega)
      cases this) h hcur hset
    rw [List.take_of_length_le (by simp)] at e
    exact ⟨st', e, g', fun q hq => s' q (by omega)⟩
  | cons f rem ih =>
    intro p st ho hsub hrem h hcur hset
    have ho' := ho
    obtain ⟨h1, h2, h3, h4⟩ := ho
    obtain ⟨st1, e1, g1, c1, s1⟩ := scan_lits (fs := fs) (zero := zero) (f.pos - p) p st (by omega) (by
      rintro q hq hq2 ⟨f', hf', h1', h2'⟩
      rcases List.mem_cons.mp (hrem f' hf' (by omega)) with rfl | hm
      · omega
      · have := FactorsOrdered.pos_ge rem _ h4 f' hm; omega) h hcur hset
    rw [opsFrom, foldlM_append_ok e1]
    have hpp : p + (f.pos - p) = f.pos := by omega
    rw [hpp] at c1 s1
    obtain ⟨st2, e2, g2, k2, c2, s2⟩ := facLoop_spec hT f.len false st1 f.src g1 (by
      intro j hj
      rw [c1]
      exact ⟨⟨f, hsub f (by simp), by omega, by omega⟩, srcPos_eq ho0 (hsub f (by simp)) hj⟩) (by intro h; cases h)
    have e : st1.op zero (.fac f.src f.len) = .ok st2 := by rw [SB.op, e2]
    rw [foldlM_cons_ok e]
    refine ih (f.pos + f.len) st2 h4 (fun f' hf' => hsub f' (by simp [hf'])) ?_ g2 (by omega) ?_
    · intro f' hf' hlt
      rcases List.mem_cons.mp (hrem f' hf' (by omega)) with rfl | hm
      · omega
      · exact hm
    · intro q hq
      by_cases hqp : q < f.pos
      · exact (s1 q hqp).keeps k2
      · have := s2 (q - f.pos) (by omega); rwa [c1, show f.pos + (q - f.pos) = q by omega] at this

theorem set_self {α : Type} {l : List α} {i : Nat} {a : α} (h : l[i]? = some a) : l.set i a = l := by
  apply List.ext_getElem?
  intro j
  by_cases hj : j = i
  · subst hj; rw [set_get_self _ (List.getElem?_eq_some_iff.mp h).1, h]
  · rw [List.getElem?_set_ne (Ne.symm hj)]

theorem lazy1_spec (hT : ∀ q, Tgt fs q → Pair text rank (Usable text zero) (srcPos fs q) q) {st : SB} (h : SInv text zero fs st) {q : Nat} (hq : Tgt fs q) :
    ∃ st', st.lazy1 zero (srcPos fs q) q = .ok st' ∧ SInv text zero fs st' ∧ SKeeps st st' ∧ st'.stored = st.stored := by
  have pr := hT q hq
  have hbl : q < st.buf.length := by rw [h.bl]; exact pr.uq.1
  rcases h.dec_cases pr.us.1 with hd | hd
  · obtain ⟨st', e, g', k', -, -, s'⟩ := move_spec h hT hq hd
    refine ⟨st', ?_, g', k', s'⟩
    unfold SB.lazy1
    split
    · rename_i hz
      have hv := h.val _ hd
      have hn := pr.us.2 hz
      rw [List.getElem?_eq_getElem pr.us.1] at hv hn
      rw [SB.move, vget_ok hv] at e
      rw [vget_ok hv]
      simp only at e ⊢
      rw [vset_ok _ hbl] at e ⊢
      simp at hn
      simp only [hn, ne_eq, not_false_eq_true, decide_true]
      exact e
    · rw [vget_ok hd]; exact e
  · refine ⟨st, ?_, h, SKeeps.refl _, rfl⟩
    unfold SB.lazy1
    split
    · rename_i hz
      have hqd : st.dec[q]? = some false := by
        rcases h.dec_cases pr.uq.1 with h' | h'
        · have := h.back q hq h'; rw [hd] at this; cases this
        · exact h'
      rw [vget_ok (h.zer hz _ hd)]
      simp only
      rw [vset_ok _ hbl, set_self (h.zer hz _ hqd)]
      simp [set_self hqd]
    · rw [vget_ok hd]

theorem lazyN_spec (hT : ∀ q, Tgt fs q → Pair text rank (Usable text zero) (srcPos fs q) q) (n : Nat) : ∀ (st : SB) (t s : Nat),
    SInv text zero fs st → (∀ k, k < n → Tgt fs (t + k) ∧ srcPos fs (t + k) = s + k) →
    ∃ st', st.lazyN zero t s n = .ok st' ∧ SInv text zero fs st' ∧ SKeeps st st' ∧ st'.stored = st.stored := by
  induction n with
  | zero => intro st t s h _; exact ⟨st, rfl, h, SKeeps.refl _, rfl⟩
  | succ n ih =>
    intro st t s h hp
    obtain ⟨hq, hs⟩ := hp 0 (by omega)
    simp only [Nat.add_zero] at hq hs
    obtain ⟨st1, e1, g1, k1, s1⟩ := lazy1_spec hT h hq
    rw [hs] at e1
    obtain ⟨st2, e2, g2, k2, s2⟩ := ih st1 (t + 1) (s + 1) g1 (by
      intro k hk
      have := hp (k + 1) (by omega)
      rwa [show t + 1 + k = t + (k + 1) by omega, show s + 1 + k = s + (k + 1) by omega])
    exact ⟨st2, by rw [SB.lazyN, e1]; exact e2, g2, k1.trans k2, s2.trans s1⟩

theorem lazyRound_spec (hT : ∀ q, Tgt fs q → Pair text rank (Usable text zero) (srcPos fs q) q) {st : SB} (h : SInv text zero fs st) :
    ∃ st', st.lazyRound zero = .ok st' ∧ SInv text zero fs st' ∧ SKeeps st st' := by
  unfold SB.lazyRound
  have : ∀ (l : List (Nat × Nat × Nat)) (st : SB), SInv text zero fs st → (∀ e ∈ l, e ∈ st.stored) →
      ∃ st', l.foldlM (fun st f => st.lazyN zero f.1 f.2.1 f.2.2) st = .ok st' ∧ SInv text zero fs st' ∧ SKeeps st st' := by
    intro l
    induction l with
    | nil => intro st h _; exact ⟨st, rfl, h, SKeeps.refl _⟩
    | cons e l ih =>
      intro st h hl
      obtain ⟨st1, e1, g1, k1, s1⟩ := lazyN_spec hT e.2.2 st e.1 e.2.1 h (h.pairs e (hl e (by simp)))
      obtain ⟨st2, e2, g2, k2⟩ := ih st1 g1 (fun x hx => by rw [s1]; exact hl x (by simp [hx]))
      exact ⟨st2, by rw [foldlM_cons_ok e1]; exact e2, g2, k1.trans k2⟩
  exact this st.stored st h (fun _ h => h)

theorem lazy_spec (hT : ∀ q, Tgt fs q → Pair text rank (Usable text zero) (srcPos fs q) q) (k : Nat) : ∀ (st : SB), SInv text zero fs st →
    ∃ st', st.lazy zero k = .ok st' ∧ SInv text zero fs st' ∧ SKeeps st st' := by
  induction k with
  | zero => intro st h; exact ⟨st, rfl, h, SKeeps.refl _⟩
  | succ k ih =>
    intro st h
    obtain ⟨st1, e1, g1, k1⟩ := lazyRound_spec hT h
    obtain ⟨st2, e2, g2, k2⟩ := ih st1 g1
    exact ⟨st2, by rw [SB.lazy, e1]; exact e2, g2, k1.trans k2⟩

theorem eager_spec {g : Cfg} {L : Nat → Prop} (hc : Ctx text g rank (Usable text zero) L) (stored : List (Nat × Nat × Nat)) : ∀ (st : FB),
    Good text g rank (Usable text zero) L st noAct →
    (∀ e ∈ stored, ∀ k, k < e.2.2 → Pair text rank (Usable text zero) (e.2.1 + k) (e.1 + k)) →
    ∃ st', eager g st stored = .ok st' ∧ Good text g rank (Usable text zero) L st' noAct ∧ Keeps g st st' noAct ∧
      ∀ e ∈ stored, ∀ k, k < e.2.2 → Settled g st' (e.1 + k) := by
  unfold eager
  induction stored with
  | nil => intro st h _; exact ⟨st, rfl, h, Keeps.refl _ _, by simp⟩
  | cons e l ih =>
    intro st h hp
    obtain ⟨st1, e1, g1, k1, w1⟩ := copyN_spec hc e.2.2 st e.2.1 e.1 h (hp e (by simp))
    obtain ⟨st2, e2, g2, k2, w2⟩ := ih st1 g1 (fun x hx => hp x (by simp [hx]))
    refine ⟨st2, by rw [foldlM_cons_ok e1]; exact e2, g2, k1.trans k2, ?_⟩
    intro x hx k hk
    rcases List.mem_cons.mp hx with rfl | hx
    · exact (w1 k hk).keeps k2
    · exact w2 x hx k hk

theorem tgt_pair (ho : FactorsOrdered text.length 0 fs)
    (hp : ∀ f ∈ fs, ∀ k, k < f.len → Pair text rank (Usable text zero) (f.src + k) (f.pos + k)) :
    ∀ q, Tgt fs q → Pair text rank (Usable text zero) (srcPos fs q) q := by
  rintro q ⟨f, hf, h1, h2⟩
  obtain ⟨k, rfl⟩ : ∃ k, q = f.pos + k := ⟨q - f.pos, by omega⟩
  rw [srcPos_eq ho hf (by omega)]
  exact hp f hf k (by omega)

theorem sinv_init (text : List UInt8) (zero : Bool) (fs : List Factor) :
    SInv text zero fs ⟨List.replicate text.length 0, List.replicate text.length false, 0, []⟩ := by
  have hrep : ∀ {n i : Nat}, ¬ (List.replicate n false)[i]? = some true := by
    intro n i h
    rw [List.getElem?_replicate] at h
    split at h <;> simp at h
  refine ⟨by simp, by simp, fun i h => absurd h hrep, ?_, fun q _ h => absurd h hrep, by simp⟩
  intro _ i h
  have : i < text.length := by
    have := (List.getElem?_eq_some_iff.mp h).1; simpa using this
  show (List.replicate text.length (0 : UInt8))[i]? = _
  rw [List.getElem?_replicate, if_pos this]

end

theorem runMulti_spec (ins : List Nat → Nat → List Nat) (hins : ∀ l q x, x ∈ ins l q ↔ x ∈ l ∨ x = q) (lazy : Nat)
    {text : List UInt8} {fs : List Factor} (ho : FactorsOrdered text.length 0 fs) (hr : Resolvable text fs) :
    runMulti ins lazy text.length (opsFrom text fs 0) = .ok text := by
  obtain ⟨rank, hp⟩ := pairs_of (zero := false) ho hr (by intro h; cases h)
  have hT := tgt_pair ho hp
  obtain ⟨st1, e1, g1, s1⟩ := scan_ops ho hT fs 0 _ ho (fun _ h => h) (fun _ h _ => h) (sinv_init text false fs) rfl (by intro q hq; omega)
  obtain ⟨st2, e2, g2, k2⟩ := lazy_spec hT lazy st1 g1
  have hc : Ctx text (cfgMulti ins) rank (Usable text false) (· < text.length) := by
    refine ⟨?_, hins, fun i h => h.1, fun i h z => h.2 z, fun i h => h.1⟩
    intro s s' r h h'; cases h; cases h'; rfl
  have hg : Good text (cfgMulti ins) rank (Usable text false) (· < text.length) ⟨st2.buf, st2.dec, List.replicate text.length (some []), 0⟩ noAct := by
    refine ⟨g2.bl, g2.dl, g2.val, fun h => (by cases h), ?_, fun s _ _ => ⟨s, rfl⟩, ?_⟩
    · intro s r hs hr
      cases hr
      exact ⟨[], by show (List.replicate text.length (some []))[s]? = _; rw [List.getElem?_replicate, if_pos hs]⟩
    · rintro s q ⟨r, l, a, b, d⟩
      replace b : (List.replicate text.length (some ([] : List Nat)))[r]? = some (some l) := b
      rw [List.getElem?_replicate] at b
      split at b
      · cases b; cases d
      · cases b
  obtain ⟨st3, e3, g3, k3, s3⟩ := eager_spec hc st2.stored _ hg (by
    intro e he k hk
    obtain ⟨t, hs⟩ := g2.pairs e he k hk
    rw [← hs]
    exact hT _ t)
  rw [runMulti, e1]
  simp only [e2, e3]
  rw [g3.complete hc]
  intro q hq
  rcases (s1 q hq).keeps k2 with h | ⟨e, he, k, hk, rfl⟩
  · exact Or.inl (k3.mono q h)
  · exact s3 e he k hk

theorem count_take_lt {buf : List UInt8} {i j : Nat} (hij : i < j) (hj : buf[j]? = some 0) :
    (buf.take (i + 1)).count 0 < (buf.take (j + 1)).count 0 := by
  have hlt := (List.getElem?_eq_some_iff.mp hj).1
  have h1 : buf.take (j + 1) = buf.take j ++ [0] := by
    rw [List.take_add_one, hj]; rfl
  rw [h1, List.count_append, List.count_singleton_self]
  have h2 : ((buf.take j).take (i + 1)).count 0 ≤ (buf.take j).count 0 := (List.take_sublist _ _).count_le _
  rw [List.take_take, Nat.min_eq_left (by omega)] at h2
  omega

theorem runScan_spec (scans : Nat) {text : List UInt8} {fs : List Factor} (hs : Sentinel text) (ho : FactorsOrdered text.length 0 fs)
    (hr : Resolvable text fs) : runScan scans text.length (opsFrom text fs 0) = .ok text := by
  obtain ⟨rank, hp⟩ := pairs_of (zero := true) ho hr (fun _ => no_null hs ho hr)
  have hT := tgt_pair ho hp
  obtain ⟨st1, e1, g1, s1⟩ := scan_ops ho hT fs 0 _ ho (fun _ h => h) (fun _ h _ => h) (sinv_init text true fs) rfl (by intro q hq; omega)
  obtain ⟨st2, e2, g2, k2⟩ := lazy_spec hT scans st1 g1
  have hpos := hs.len_pos
  -- the sentinel is a zero of the buffer
  have hlast : st2.buf[text.length - 1]? = some 0 := by
    rcases g2.dec_cases (i := text.length - 1) (by omega) with h | h
    · rw [g2.val _ h, hs.last]
    · exact g2.zer rfl _ h
  have hzr : ∀ i r, (cfgScan st2.buf).ix i = some r → st2.buf[i]? = some 0 ∧ r = (st2.buf.take (i + 1)).count 0 := by
    intro i r h
    simp only [cfgScan] at h
    split at h
    · rename_i hz
      cases h
      exact ⟨by simpa [isZeroAt] using hz, rfl⟩
    · cases h
  have hc : Ctx text (cfgScan st2.buf) rank (Usable text true) (Usable text true) := by
    refine ⟨?_, by intro l q x; simp [cfgScan], fun i h => h.1, fun i h z => h.2 z, fun i h => h⟩
    intro s s' r h h'
    obtain ⟨z, rfl⟩ := hzr s r h
    obtain ⟨z', e⟩ := hzr s' _ h'
    rcases Nat.lt_trichotomy s s' with hlt | heq | hlt
    · have := count_take_lt hlt z'; omega
    · exact heq
    · have := count_take_lt hlt z; omega
  have hg : Good text (cfgScan st2.buf) rank (Usable text true) (Usable text true) ⟨st2.buf, st2.dec, scanFwd st2.buf, 0⟩ noAct := by
    refine ⟨g2.bl, g2.dl, g2.val, g2.zer, ?_, ?_, ?_⟩
    · intro s r hu hr
      obtain ⟨z, rfl⟩ := hzr s r hr
      have hne : s ≠ text.length - 1 := by
        rintro rfl
        exact hu.2 rfl hs.last
      have hlt := count_take_lt (i := s) (j := text.length - 1) (by have := hu.1; omega) hlast
      have hall : st2.buf.take (text.length - 1 + 1) = st2.buf := List.take_of_length_le (by rw [g2.bl]; omega)
      rw [hall] at hlt
      refine ⟨[], ?_⟩
      show (List.replicate _ _ ++ _)[_]? = _
      rw [List.getElem?_append_left (by simpa using hlt), List.getElem?_replicate, if_pos hlt]
    · intro s hu hd
      have hz := g2.zer rfl s hd
      exact ⟨zeroRank st2.buf s, by simp [cfgScan, isZeroAt, hz]⟩
    · rintro s q ⟨r, l, a, b, d⟩
      replace b : (List.replicate (st2.buf.count 0) (some ([] : List Nat)) ++ [none])[r]? = some (some l) := b
      rw [List.getElem?_append] at b
      split at b
      · rename_i hlt
        rw [List.getElem?_replicate] at b
        split at b
        · cases b; cases d
        · cases b
      · rw [List.getElem?_singleton] at b
        split at b <;> cases b
  obtain ⟨st3, e3, g3, k3, s3⟩ := eager_spec hc st2.stored _ hg (by
    intro e he k hk
    obtain ⟨t, hs⟩ := g2.pairs e he k hk
    rw [← hs]
    exact hT _ t)
  rw [runScan, e1]
  simp only [e2, e3]
  rw [g3.complete hc]
  intro q hq
  rcases (s1 q hq).keeps k2 with h | ⟨e, he, k, hk, rfl⟩
  · exact Or.inl (k3.mono q h)
  · exact s3 e he k hk

end LC
end Tdc
