import Verif.Lemmas.BstSim

/-!
# The steps of the array implementation
-/

namespace Tdc
namespace Bst

open Ukk (S upd upd_self upd_ne TI Mid Done bind_ok inner_ne)

variable {N : Nat} {F G : Nat → Nat} {K : Nat → List Nat} {s : S} {b : B} {P T : List UInt8} {c : UInt8} {lab : Nat → List UInt8} {j : Nat}

/-- some linked lists -/
def RepE (N : Nat) (s : S) (b : B) : Prop := ∃ F G K, Rep N F G K s b

theorem createNode_ok {start stop : Nat → Nat} (h1 : Arr b.start start (2 * N)) (h2 : Arr b.stop stop (2 * N)) (hn : b.newNode + 1 < 2 * N) (st e : Nat) :
    ∃ st' en', createNode st e b = .ok { b with start := st', stop := en', newNode := b.newNode + 1 } ∧
      Arr st' (upd start (b.newNode + 1) st) (2 * N) ∧ Arr en' (upd stop (b.newNode + 1) e) (2 * N) := by
  obtain ⟨st', a1, a2⟩ := h1.set hn st
  obtain ⟨en', b1, b2⟩ := h2.set hn e
  exact ⟨st', en', by rw [createNode, a1, bind_ok, b1, bind_ok], a2, b2⟩

theorem mem_unique (h : TI P lab j s) (r : Rep N F G K s b) {u v x : Nat} (hu : s.kind u = some .inner) (hv : s.kind v = some .inner) (hx : x ∈ K u) (hy : x ∈ K v) :
    u = v := by
  obtain ⟨a, ha⟩ := (r.mem u hu x).1 hx
  obtain ⟨d, hd⟩ := (r.mem v hv x).1 hy
  exact (h.parent_unique hu hv ha hd).1

theorem mem_old (h : TI P lab j s) (r : Rep N F G K s b) {v x : Nat} (hv : s.kind v = some .inner) (hx : x ∈ K v) : x ≤ s.last := by
  obtain ⟨a, ha⟩ := (r.mem v hv x).1 hx
  exact h.old (h.edge v a x hv ha).1

theorem addLeaf_sim (h : TI P lab j s) (r : Rep N F G K s b) (hl : s.last < 2 * N - 1) (han : s.kind s.an = some .inner) (hno : s.kid s.an s.ae = none)
    {prev : Nat} (hp : ∀ hne : K s.an ≠ [], prev = (K s.an).getLast hne) : ∃ b', addLeaf prev b = .ok b' ∧ RepE N (Ukk.addLeaf s) b' := by
  obtain ⟨st', en', e1, hst, hen⟩ := createNode_ok r.start r.stop (by rw [r.newNode]; omega) (b.pos1 - 1) 0
  rw [r.newNode] at e1 hst hen
  rw [r.pos1] at hst
  have hanl := h.old (inner_ne han)
  obtain ⟨su, e2, hsu⟩ := r.suf.set (v := s.last + 1) (by omega) b.cur
  rw [r.cur] at hsu
  have e3 : vget b.first b.an = .ok (F s.an) := by rw [r.an]; exact r.first.get (by omega)
  have hm0 : s.last + 1 ≠ 0 := by omega
  have hG0 : G (s.last + 1) = 0 := r.sibNew _ (by omega)
  -- what does not depend on the case
  have kindI : ∀ v, (Ukk.addLeaf s).kind v = some .inner → s.kind v = some .inner ∧ v ≠ s.last + 1 := by
    intro v hv
    by_cases e : v = s.last + 1
    · subst e
      rw [Ukk.addLeaf_kind_new] at hv
      cases hv
    · rw [Ukk.addLeaf_kind e] at hv
      exact ⟨hv, e⟩
  have nodup' : ∀ v, (Ukk.addLeaf s).kind v = some .inner → (upd K s.an (K s.an ++ [s.last + 1]) v).Nodup := by
    intro v hv
    obtain ⟨hv, -⟩ := kindI v hv
    by_cases e : v = s.an
    · subst e
      rw [upd_self]
      refine List.nodup_append.2 ⟨r.nodup _ han, by simp, ?_⟩
      intro x hx y hy
      rw [List.mem_singleton] at hy
      have := mem_old h r han hx
      omega
    · rw [upd_ne _ _ e]
      exact r.nodup v hv
  have mem' : ∀ v, (Ukk.addLeaf s).kind v = some .inner → ∀ x, x ∈ upd K s.an (K s.an ++ [s.last + 1]) v ↔ ∃ ch, (Ukk.addLeaf s).kid v ch = some x := by
    intro v hv x
    obtain ⟨hv, -⟩ := kindI v hv
    by_cases e : v = s.an
    · subst e
      rw [upd_self, List.mem_append, List.mem_singleton, r.mem _ han]
      constructor
      · rintro (⟨ch, hch⟩ | rfl)
        · refine ⟨ch, ?_⟩
          rw [Ukk.addLeaf_kid, hch]
          rintro ⟨-, rfl⟩
          rw [hno] at hch
          cases hch
        · exact ⟨s.ae, Ukk.addLeaf_kid_new⟩
      · rintro ⟨ch, hch⟩
        by_cases e : ch = s.ae
        · subst e
          rw [Ukk.addLeaf_kid_new] at hch
          cases hch
          exact Or.inr rfl
        · rw [Ukk.addLeaf_kid (fun e' => e e'.2)] at hch
          exact Or.inl ⟨ch, hch⟩
    · rw [upd_ne _ _ e, r.mem v hv]
      constructor <;> rintro ⟨ch, hch⟩ <;> refine ⟨ch, ?_⟩
      · rwa [Ukk.addLeaf_kid (fun e' => e e'.1)]
      · rwa [Ukk.addLeaf_kid (fun e' => e e'.1)] at hch
  have cnt : s.last + 1 ≤ max 1 (2 * (s.suffix + 1)) := by have := r.count; omega
  have chainO : ∀ G' : Nat → Nat, (∀ x v, s.kind v = some .inner → v ≠ s.an → x ∈ K v → G' x = G x) → ∀ v, v ≠ s.an → (Ukk.addLeaf s).kind v = some .inner →
      Chain G' (F v) (upd K s.an (K s.an ++ [s.last + 1]) v) := by
    intro G' hG v e hv
    obtain ⟨hv, -⟩ := kindI v hv
    rw [upd_ne _ _ e]
    exact (r.chain v hv).congr fun x hx => hG x v hv e hx
  have firstN : ∀ v, (Ukk.addLeaf s).kind v ≠ some .inner → F v = 0 := by
    intro v hv
    refine r.firstNone v fun hk => hv ?_
    rw [Ukk.addLeaf_kind (fun e => by have := h.old (inner_ne hk); omega), hk]
  have hc := r.chain s.an han
  by_cases hn : K s.an = []
  · rw [hn] at hc
    have hF : F s.an = 0 := hc
    obtain ⟨fi, e4, hfi⟩ := r.first.set (v := s.an) (by omega) (s.last + 1)
    have e3' : vget b.first s.an = .ok (F s.an) := by have := e3; rwa [r.an] at this
    refine ⟨_, by simp only [addLeaf, e1, bind_ok, e2, r.an, e3', if_pos hF, e4]; rfl, upd F s.an (s.last + 1), G, upd K s.an (K s.an ++ [s.last + 1]), ?_⟩
    refine ⟨hst, hen, hsu, r.link, hfi, r.sib, ?_, nodup', mem', ?_, ?_, ?_, rfl, r.pos1, by rw [r.cur]; rfl, r.remainder, rfl, r.ae, r.al, r.sl, cnt,
      fun v hv => ⟨by rw [upd_ne _ _ (by omega)]; exact (r.big v hv).1, (r.big v hv).2⟩, by show s.last + 1 ≤ _; omega⟩
    · intro v hv
      by_cases e : v = s.an
      · subst e
        rw [upd_self, upd_self, hn]
        exact ⟨rfl, hm0, hG0⟩
      · rw [upd_ne F _ e]
        exact chainO G (fun _ _ _ _ _ => rfl) v e hv
    · intro v hv
      by_cases e : v = s.an
      · subst e
        exfalso
        refine hv ?_
        rw [Ukk.addLeaf_kind (by omega)]
        exact han
      · rw [upd_ne _ _ e]
        exact firstN v hv
    · intro v hv
      have hv' : s.last + 1 < v := hv
      exact r.sibNew v (by omega)
    · intro v hv
      have hv' : s.last + 1 < v := hv
      exact r.linkNew v (by omega)
  · have hF : F s.an ≠ 0 := by
      cases hk : K s.an with
      | nil => exact absurd hk hn
      | cons x xs => rw [hk] at hc; rw [hc.1]; exact hc.2.1
    have hpv := hp hn
    have hpm : prev ∈ K s.an := by rw [hpv]; exact List.getLast_mem hn
    have hpl := mem_old h r han hpm
    obtain ⟨xs, hxs⟩ : ∃ xs, K s.an = xs ++ [prev] := ⟨(K s.an).dropLast, by rw [hpv]; exact (List.dropLast_append_getLast hn).symm⟩
    obtain ⟨si, e4, hsi⟩ := r.sib.set (v := prev) (by omega) (s.last + 1)
    refine ⟨_, by simp only [addLeaf, e1, bind_ok, e2, e3, if_neg hF, e4]; rfl, F, upd G prev (s.last + 1), upd K s.an (K s.an ++ [s.last + 1]), ?_⟩
    refine ⟨hst, hen, hsu, r.link, r.first, hsi, ?_, nodup', mem', firstN, ?_, ?_, rfl, r.pos1, by rw [r.cur]; rfl, r.remainder, r.an, r.ae, r.al, r.sl, cnt,
      fun v hv => ⟨(r.big v hv).1, by rw [upd_ne _ _ (by omega)]; exact (r.big v hv).2⟩, by show s.last + 1 ≤ _; omega⟩
    · intro v hv
      by_cases e : v = s.an
      · subst e
        rw [upd_self]
        have hnd := r.nodup _ han
        rw [hxs] at hc hnd ⊢
        rw [List.append_assoc]
        refine Chain.snoc hm0 (upd_self ..) (by rw [upd_ne _ _ (by omega)]; exact hG0) hc ?_
        intro x hx
        refine upd_ne _ _ ?_
        rintro rfl
        exact (List.nodup_append.1 hnd).2.2 x hx x (by simp) rfl
      · refine chainO _ (fun x v hv hne hx => ?_) v e hv
        refine upd_ne _ _ ?_
        rintro rfl
        exact hne (mem_unique h r hv han hx hpm)
    · intro v hv
      have hv' : s.last + 1 < v := hv
      rw [upd_ne _ _ (by omega)]
      exact r.sibNew v (by omega)
    · intro v hv
      have hv' : s.last + 1 < v := hv
      exact r.linkNew v (by omega)

theorem addSl_sim (r : RepE N s b) (h1 : s.sl ≤ s.last) (h2 : s.sl < 2 * N - 1) (x : Nat) : ∃ b', addSl x b = .ok b' ∧ RepE N (Ukk.addSl x s) b' := by
  obtain ⟨F, G, K, r⟩ := r
  by_cases e : s.sl = 0
  · refine ⟨_, by rw [addSl, r.sl, if_pos e, bind_ok], F, G, K, ?_⟩
    refine ⟨r.start, r.stop, r.suf, ?_, r.first, r.sib, r.chain, r.nodup, r.mem, r.firstNone, r.sibNew, ?_, r.newNode, r.pos1, r.cur, r.remainder, r.an, r.ae, r.al,
      rfl, r.count, r.big, r.bound⟩
    · simp only [Ukk.addSl, if_pos e]
      exact r.link
    · simp only [Ukk.addSl, if_pos e]
      exact r.linkNew
  · obtain ⟨l, e1, hl⟩ := r.link.set h2 x
    refine ⟨_, by rw [addSl, r.sl, if_neg e, e1, bind_ok], F, G, K, ?_⟩
    refine ⟨r.start, r.stop, r.suf, ?_, r.first, r.sib, r.chain, r.nodup, r.mem, r.firstNone, r.sibNew, ?_, r.newNode, r.pos1, r.cur, r.remainder, r.an, r.ae, r.al,
      rfl, r.count, r.big, r.bound⟩
    · simp only [Ukk.addSl, if_neg e]
      refine hl.congr fun v _ => ?_
      by_cases hv : v = s.sl
      · subst hv
        rw [upd_self, upd_self]
        rfl
      · rw [upd_ne _ _ hv, upd_ne _ _ hv]
    · intro v hv
      have hv' : s.last < v := hv
      simp only [Ukk.addSl, if_neg e]
      rw [upd_ne _ _ (by omega)]
      exact r.linkNew v hv'

theorem nextSuffix_sim {s' : S} (r : RepE N s b) (h1 : s.an < 2 * N - 1) (h : Ukk.nextSuffix T s = .ok s') : ∃ b', nextSuffix T b = .ok b' ∧ RepE N s' b' := by
  obtain ⟨F, G, K, r⟩ := r
  by_cases hc : s.an = 0 ∧ 0 < s.al
  · rw [Ukk.nextSuffix, if_pos hc] at h
    cases e : vget T (s.pos1 - (s.remainder - 1)) with
    | error x =>
      rw [e] at h
      cases h
    | ok x =>
      rw [e, bind_ok] at h
      cases h
      refine ⟨_, by rw [nextSuffix, r.an, r.al, if_pos hc, r.pos1, r.remainder, e, bind_ok], F, G, K, ?_⟩
      exact ⟨r.start, r.stop, r.suf, r.link, r.first, r.sib, r.chain, r.nodup, r.mem, r.firstNone, r.sibNew, r.linkNew, r.newNode, rfl, r.cur, rfl, rfl, rfl,
        rfl, r.sl, r.count, r.big, r.bound⟩
  · rw [Ukk.nextSuffix, if_neg hc] at h
    cases h
    have e : vget b.link s.an = .ok ((s.link s.an).getD 0) := r.link.get h1
    refine ⟨_, by rw [nextSuffix, r.an, r.al, if_neg hc, r.remainder, e, bind_ok], F, G, K, ?_⟩
    refine ⟨r.start, r.stop, r.suf, r.link, r.first, r.sib, r.chain, r.nodup, r.mem, r.firstNone, r.sibNew, r.linkNew, r.newNode, r.pos1, r.cur, rfl, ?_, r.ae,
      rfl, r.sl, r.count, r.big, r.bound⟩
    show (if (s.link s.an).getD 0 ≠ 0 then (s.link s.an).getD 0 else 0) = (s.link s.an).getD 0
    split <;> omega

theorem splitEdge_sim {d : UInt8} {next prev : Nat} {pre post : List Nat} (h : TI P lab j s) (r : Rep N F G K s b) (hl : s.last + 1 < 2 * N - 1)
    (han : s.kind s.an = some .inner) (hK : K s.an = pre ++ next :: post) (hnx : s.kid s.an s.ae = some next) (hdc : d ≠ c) (hj : 1 ≤ s.suffix)
    (hp : prev = if h : pre = [] then next else pre.getLast h) : ∃ b', splitEdge next prev b = .ok b' ∧ b'.newNode = s.last + 2 ∧ RepE N (Ukk.splitEdge c d next s) b' := by
  have hc := r.chain s.an han
  have hnd := r.nodup s.an han
  have hanl := h.old (inner_ne han)
  have hnl : next ≤ s.last := mem_old h r han (by rw [hK]; simp)
  have hal : ∀ x ∈ K s.an, x ≤ s.last := fun x hx => mem_old h r han hx
  have e0 : vget b.start next = .ok (s.start next) := r.start.get (by omega)
  obtain ⟨st1, en1, e1, hst1, hen1⟩ := createNode_ok r.start r.stop (by rw [r.newNode]; omega) (s.start next) (s.start next + b.al)
  rw [r.newNode] at e1 hst1 hen1
  obtain ⟨st2, e2, hst2⟩ := hst1.set (v := next) (by omega) (s.start next + b.al)
  -- relink
  obtain ⟨F1, G1, fi, si, e3, hfi, hsi, hF1, hG1, hprev⟩ : ∃ (F1 G1 : Nat → Nat) (fi si : List Nat),
      relink (s.last + 1) next prev { b with start := st2, stop := en1, newNode := s.last + 1 } =
        .ok { b with start := st2, stop := en1, newNode := s.last + 1, first := fi, sib := si } ∧ Arr fi F1 (2 * N - 1) ∧ Arr si G1 (2 * N - 1) ∧
      (∀ v, v ≠ s.an → F1 v = F v) ∧ (∀ v, v ∉ pre → G1 v = G v) ∧
      ∀ G' : Nat → Nat, (∀ x ∈ pre, G' x = G1 x) → G' (s.last + 1) = G next → (∀ x ∈ post, G' x = G x) → Chain G' (F1 s.an) (pre ++ (s.last + 1) :: post) := by
    have hF0 : F s.an ≠ 0 := by
      rw [hK] at hc
      cases pre with
      | nil => rw [hc.1]; exact hc.2.1
      | cons x xs => rw [hc.1]; exact hc.2.1
    have e4 : vget b.first b.an = .ok (F s.an) := by rw [r.an]; exact r.first.get (by omega)
    by_cases hpre : pre = []
    · subst hpre
      rw [hK] at hc
      have hFn : F s.an = next := hc.1
      obtain ⟨fi, e5, hfi⟩ := r.first.set (v := s.an) (by omega) (s.last + 1)
      refine ⟨upd F s.an (s.last + 1), G, fi, b.sib, ?_, hfi, r.sib, fun v hv => upd_ne _ _ hv, fun _ _ => rfl, ?_⟩
      · rw [r.an] at e4
        simp only [relink, r.an, e4, bind_ok, if_neg hF0, if_pos hFn, e5]
      · intro G' _ h2 h3
        rw [upd_self]
        exact ⟨rfl, by omega, by rw [h2]; exact hc.2.2.congr h3⟩
    · rw [dif_neg hpre] at hp
      have hpm : prev ∈ pre := by rw [hp]; exact List.getLast_mem hpre
      have hpl := hal prev (by rw [hK]; exact List.mem_append_left _ hpm)
      obtain ⟨xs, hxs⟩ : ∃ xs, pre = xs ++ [prev] := ⟨pre.dropLast, by rw [hp]; exact (List.dropLast_append_getLast hpre).symm⟩
      rw [hK] at hc hnd
      have hFn : F s.an ≠ next := by
        intro e
        cases pre with
        | nil => exact hpre rfl
        | cons x ys =>
          have : F s.an = x := hc.1
          have hx : x = next := by omega
          subst hx
          simp at hnd
      obtain ⟨si, e5, hsi⟩ := r.sib.set (v := prev) (by omega) (s.last + 1)
      refine ⟨F, upd G prev (s.last + 1), b.first, si, ?_, r.first, hsi, fun _ _ => rfl, fun v hv => ?_, ?_⟩
      · simp only [relink, e4, bind_ok, if_neg hF0, if_neg hFn, e5]
      · exact upd_ne _ _ (fun e => hv (e ▸ hpm))
      · intro G' h1 h2 h3
        rw [hxs, List.append_assoc] at hc ⊢
        have hnd2 : xs.Nodup ∧ prev ∉ xs := by
          have := (List.nodup_append.1 hnd).1
          rw [hxs] at this
          have h4 := List.nodup_append.1 this
          exact ⟨h4.1, fun hx => h4.2.2 prev hx prev (by simp) rfl⟩
        refine Chain.replace (by omega) ?_ h2 h3 hc ?_
        · rw [h1 prev hpm, upd_self]
        · intro y hy
          rw [h1 y (by rw [hxs]; exact List.mem_append_left _ hy), upd_ne]
          rintro rfl
          exact hnd2.2 hy
  rw [hK] at hnd
  have hnpre : next ∉ pre := fun hx => (List.nodup_append.1 hnd).2.2 next hx next (by simp) rfl
  have hnpost : next ∉ post := (List.nodup_cons.1 (List.nodup_append.1 hnd).2.1).1
  obtain ⟨fi2, e6, hfi2⟩ := hfi.set (v := s.last + 1) (by omega) next
  have e7 : vget si next = .ok (G next) := by rw [hsi.get (by omega), hG1 next hnpre]
  obtain ⟨si2, e8, hsi2⟩ := hsi.set (v := s.last + 1) (by omega) (G next)
  obtain ⟨st3, en3, e9, hst3, hen3⟩ := createNode_ok (b := { b with start := st2, stop := en1, newNode := s.last + 1, first := fi2, sib := si2 }) hst2 hen1
    (by show s.last + 1 + 1 < 2 * N; omega) (b.pos1 - 1) 0
  obtain ⟨si3, e10, hsi3⟩ := hsi2.set (v := next) (by omega) (s.last + 1 + 1)
  obtain ⟨su, e11, hsu⟩ := r.suf.set (v := s.last + 1 + 1) (by omega) b.cur
  have onx : next ≠ s.last + 1 ∧ next ≠ s.last + 2 := by omega
  have oan : s.an ≠ s.last + 1 := by omega
  refine ⟨_, by simp only [splitEdge, e0, e1, e2, e3, e6, e7, e8, e9, e10, e11, bind_ok]; rfl, rfl, upd F1 (s.last + 1) next,
    upd (upd G1 (s.last + 1) (G next)) next (s.last + 1 + 1), upd (upd K s.an (pre ++ (s.last + 1) :: post)) (s.last + 1) [next, s.last + 2], ?_⟩
  have isOld : ∀ v, s.kind v ≠ none → v ≠ s.last + 1 ∧ v ≠ s.last + 2 := fun v hv => by have := h.old hv; omega
  have kindI : ∀ v, (Ukk.splitEdge c d next s).kind v = some .inner → v = s.last + 1 ∨ (v ≠ s.last + 1 ∧ s.kind v = some .inner) := by
    intro v hv
    by_cases e : v = s.last + 1
    · exact Or.inl e
    · by_cases e2 : v = s.last + 2
      · subst e2
        rw [Ukk.split_kind_leaf] at hv
        cases hv
      · rw [Ukk.split_kind e e2] at hv
        exact Or.inr ⟨e, hv⟩
  have hG1' : ∀ v, s.last < v → G1 v = 0 := by
    intro v hv
    rw [hG1 v (fun hx => by have := hal v (by rw [hK]; exact List.mem_append_left _ hx); omega)]
    exact r.sibNew v hv
  have hndl : (pre ++ (s.last + 1) :: post).Nodup := by
    have h1 := List.nodup_append.1 hnd
    have h2 := List.nodup_cons.1 h1.2.1
    refine List.nodup_append.2 ⟨h1.1, List.nodup_cons.2 ⟨fun hx => ?_, h2.2⟩, ?_⟩
    · have := hal (s.last + 1) (by rw [hK]; simp [hx])
      omega
    · intro x hx y hy
      rcases List.mem_cons.1 hy with rfl | hy
      · have := hal x (by rw [hK]; exact List.mem_append_left _ hx)
        omega
      · exact h1.2.2 x hx y (List.mem_cons_of_mem _ hy)
  refine ⟨?_, ?_, ?_, ?_, hfi2, hsi3, ?_, ?_, ?_, ?_, ?_, ?_, rfl, r.pos1, by show b.cur + 1 = s.suffix + 1; rw [r.cur], r.remainder, r.an, r.ae, r.al, r.sl, ?_,
    fun v hv => ⟨by rw [upd_ne _ _ (by omega), hF1 v (by omega)]; exact (r.big v hv).1, by rw [upd_ne _ _ (by omega), upd_ne _ _ (by omega)]; exact hG1' v (by omega)⟩,
    by show s.last + 2 ≤ _; omega⟩
  · refine hst3.congr fun v _ => ?_
    show upd (upd (upd s.start _ _) _ _) _ _ v = _
    rw [r.al, r.pos1]
    show _ = upd (upd (upd s.start (s.last + 1) (s.start next)) next (s.start next + s.al)) (s.last + 1 + 1) (s.pos1 - 1) v
    simp only [upd]
    by_cases ev : v = next
    · subst ev
      rw [if_pos rfl, if_neg (by omega), if_pos rfl]
    · rw [if_neg ev, if_neg ev]
  · refine hen3.congr fun v _ => ?_
    show upd (upd s.stop _ _) _ _ v = _
    rw [r.al]
  · rw [r.cur] at hsu
    exact hsu
  · refine r.link.congr fun v _ => ?_
    show (upd s.link (s.last + 1) none v).getD 0 = _
    by_cases ev : v = s.last + 1
    · subst ev
      rw [upd_self, r.linkNew _ (by omega)]
    · rw [upd_ne _ _ ev]
  · -- chains
    intro v hv
    have hGx : ∀ x, x ≤ s.last → x ≠ next → upd (upd G1 (s.last + 1) (G next)) next (s.last + 1 + 1) x = G1 x := by
      intro x hx hne
      rw [upd_ne _ _ hne, upd_ne _ _ (by omega)]
    rcases kindI v hv with rfl | ⟨hv1, hv2⟩
    · rw [upd_self, upd_self]
      refine ⟨rfl, h.kid_ne han hnx, ?_⟩
      rw [upd_self]
      refine ⟨rfl, by omega, ?_⟩
      show upd (upd G1 (s.last + 1) (G next)) next (s.last + 1 + 1) (s.last + 2) = 0
      rw [upd_ne _ _ (by omega), upd_ne _ _ (by omega)]
      exact hG1' _ (by omega)
    · rw [upd_ne _ _ hv1, upd_ne _ _ hv1]
      by_cases e : v = s.an
      · subst e
        rw [upd_self]
        refine hprev _ (fun x hx => ?_) ?_ (fun x hx => ?_)
        · exact hGx x (hal x (by rw [hK]; exact List.mem_append_left _ hx)) (fun e => hnpre (e ▸ hx))
        · rw [upd_ne _ _ (Ne.symm onx.1), upd_self]
        · rw [hGx x (hal x (by rw [hK]; simp [hx])) (fun e => hnpost (e ▸ hx))]
          refine hG1 x fun hx2 => ?_
          exact (List.nodup_append.1 hnd).2.2 x hx2 x (List.mem_cons_of_mem _ hx) rfl
      · rw [upd_ne _ _ e, hF1 v e]
        refine (r.chain v hv2).congr fun x hx => ?_
        rw [hGx x (mem_old h r hv2 hx), hG1 x]
        · intro hx2
          exact e (mem_unique h r hv2 han hx (by rw [hK]; exact List.mem_append_left _ hx2))
        · rintro rfl
          exact e (mem_unique h r hv2 han hx (by rw [hK]; simp))
  · intro v hv
    rcases kindI v hv with rfl | ⟨hv1, hv2⟩
    · rw [upd_self]
      simp [onx.2]
    · rw [upd_ne _ _ hv1]
      by_cases e : v = s.an
      · subst e
        rw [upd_self]
        exact hndl
      · rw [upd_ne _ _ e]
        exact r.nodup v hv2
  · intro v hv x
    rcases kindI v hv with rfl | ⟨hv1, hv2⟩
    · rw [upd_self]
      simp only [List.mem_cons, List.not_mem_nil, or_false]
      constructor
      · rintro (rfl | rfl)
        · exact ⟨d, by rw [Ukk.split_kid_mid, if_pos rfl]⟩
        · exact ⟨c, by rw [Ukk.split_kid_mid, if_neg (Ne.symm hdc), if_pos rfl]⟩
      · rintro ⟨ch, hch⟩
        rw [Ukk.split_kid_mid] at hch
        split at hch
        · cases hch
          exact Or.inl rfl
        · split at hch
          · cases hch
            exact Or.inr rfl
          · cases hch
    · rw [upd_ne _ _ hv1]
      by_cases e : v = s.an
      · subst e
        rw [upd_self]
        have hmem := r.mem s.an han
        rw [hK] at hmem
        constructor
        · intro hx
          by_cases ex : x = s.last + 1
          · subst ex
            exact ⟨s.ae, Ukk.split_kid_an oan⟩
          · have hx2 : x ∈ pre ++ next :: post ∧ x ≠ next := by
              rcases List.mem_append.1 hx with hx | hx
              · exact ⟨List.mem_append_left _ hx, fun e => hnpre (e ▸ hx)⟩
              · rcases List.mem_cons.1 hx with hx | hx
                · exact absurd hx ex
                · exact ⟨by simp [hx], fun e => hnpost (e ▸ hx)⟩
            obtain ⟨ch, hch⟩ := (hmem x).1 hx2.1
            refine ⟨ch, ?_⟩
            rw [Ukk.split_kid oan, hch]
            rintro ⟨-, rfl⟩
            rw [hnx] at hch
            cases hch
            exact hx2.2 rfl
        · rintro ⟨ch, hch⟩
          by_cases e : ch = s.ae
          · subst e
            rw [Ukk.split_kid_an oan] at hch
            cases hch
            simp
          · rw [Ukk.split_kid oan (fun e' => e e'.2)] at hch
            have hx := (hmem x).2 ⟨ch, hch⟩
            have hne : x ≠ next := by
              rintro rfl
              exact e (h.parent_unique han han hch hnx).2
            rcases List.mem_append.1 hx with hx | hx
            · exact List.mem_append_left _ hx
            · rcases List.mem_cons.1 hx with hx | hx
              · exact absurd hx hne
              · simp [hx]
      · rw [upd_ne _ _ e, r.mem v hv2]
        constructor <;> rintro ⟨ch, hch⟩ <;> refine ⟨ch, ?_⟩
        · rwa [Ukk.split_kid hv1 (fun e' => e e'.1)]
        · rwa [Ukk.split_kid hv1 (fun e' => e e'.1)] at hch
  · intro v hv
    have hv1 : v ≠ s.last + 1 := by
      rintro rfl
      exact hv Ukk.split_kind_mid
    rw [upd_ne _ _ hv1]
    have hk : s.kind v ≠ some .inner := fun hk => hv (by rw [Ukk.split_kind hv1 (isOld v (inner_ne hk)).2, hk])
    rw [hF1 v (fun e => hk (e ▸ han))]
    exact r.firstNone v hk
  · intro v hv
    have hv' : s.last + 2 < v := hv
    rw [upd_ne _ _ (by omega), upd_ne _ _ (by omega)]
    exact hG1' v (by omega)
  · intro v hv
    have hv' : s.last + 2 < v := hv
    show upd s.link (s.last + 1) none v = none
    rw [upd_ne _ _ (by omega)]
    exact r.linkNew v (by omega)
  · show s.last + 2 ≤ max 1 (2 * (s.suffix + 1))
    have := r.count
    omega

end Bst
end Tdc
