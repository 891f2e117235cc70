import Verif.Lemmas.BstStep

/-!
# The loops of the array implementation
-/

namespace Tdc
namespace Bst

open Ukk (S upd upd_self upd_ne TI Mid Done bind_ok inner_ne)

variable {N : Nat} {F G : Nat → Nat} {K : Nat → List Nat} {s : S} {b : B} {P T : List UInt8} {c : UInt8} {lab : Nat → List UInt8} {j : Nat}

theorem setEdge_sim (r : RepE N s b) : RepE N (Ukk.setEdge c s) (setEdge c b) := by
  obtain ⟨F, G, K, r⟩ := r
  rw [Ukk.setEdge, setEdge, r.al]
  split
  · exact ⟨F, G, K, r.start, r.stop, r.suf, r.link, r.first, r.sib, r.chain, r.nodup, r.mem, r.firstNone, r.sibNew, r.linkNew, r.newNode, r.pos1, r.cur, r.remainder,
      r.an, rfl, rfl, r.sl, r.count, r.big, r.bound⟩
  · exact ⟨F, G, K, r⟩

theorem sl_old {Q : List UInt8} (h : TI Q lab j s) (hs : s.sl ≠ 0 → s.kind s.sl = some .inner) : s.sl ≤ s.last := by
  by_cases e : s.sl = 0
  · omega
  · exact h.old (inner_ne (hs e))

theorem edgeLength_sim (r : Rep N F G K s b) {v : Nat} (hv : v < 2 * N) : edgeLength b v = .ok (Ukk.edgeLength s v) := by
  rw [edgeLength, Ukk.edgeLength, r.start.get hv, r.stop.get hv, r.pos1]
  split
  · rfl
  · rfl

theorem body_sim (hN : 2 ≤ N) (hP : P.length + 1 ≤ N) (hT : P ++ [c] <+: T) (h : Mid P c lab j s) (hr : RepE N s b) {r : Bool × S} (hb : Ukk.body T c s = .ok r) :
    ∃ b', body T c b = .ok (r.1, b') ∧ RepE N r.2 b' := by
  obtain ⟨h, hae, -, -⟩ := Ukk.setEdge_ok h
  have hr := setEdge_sim (c := c) hr
  rw [Ukk.body] at hb
  rw [body]
  generalize Ukk.setEdge c s = s at *
  generalize setEdge c b = b at *
  rw [Ukk.body', if_neg (by rw [h.act.an]; simp)] at hb
  obtain ⟨F, G, K, rr⟩ := id hr
  have hjs := h.ti.suffix
  have hjl := h.jle
  have hcnt := rr.count
  have hanl := h.ti.old (inner_ne h.act.an)
  have hsl := sl_old h.ti (fun e => (h.sl e).1)
  have hl : s.last < 2 * N - 1 := by omega
  rcases find_ok h.ti hT rr hl h.act.an with ⟨pre, next, post, hK, hnx, hf⟩ | hnone
  · rw [hnx] at hb
    obtain ⟨k1, -, -⟩ := h.ti.edge s.an s.ae next h.act.an hnx
    have hnl := h.ti.old k1
    have hel := edgeLength_sim rr (v := next) (by omega)
    simp only [body', hf, bind_ok, hel, rr.al, rr.pos1]
    by_cases hle : Ukk.edgeLength s next ≤ s.al
    · simp only [if_pos hle] at hb ⊢
      cases hv : vget T (s.pos1 - 1 - (s.al - Ukk.edgeLength s next)) with
      | error x => rw [hv] at hb; cases hb
      | ok e =>
        rw [hv, bind_ok] at hb
        cases hb
        refine ⟨_, rfl, F, G, K, ?_⟩
        exact ⟨rr.start, rr.stop, rr.suf, rr.link, rr.first, rr.sib, rr.chain, rr.nodup, rr.mem, rr.firstNone, rr.sibNew, rr.linkNew, rr.newNode, rfl, rr.cur,
          rr.remainder, rfl, rfl, rfl, rr.sl, rr.count, rr.big, rr.bound⟩
    · simp only [if_neg hle] at hb ⊢
      rw [rr.start.get (by omega), bind_ok]
      cases hv : vget T (s.start next + s.al) with
      | error x => rw [hv] at hb; cases hb
      | ok d =>
        rw [hv, bind_ok] at hb
        rw [bind_ok]
        by_cases hdc : d = c
        · rw [if_pos hdc] at hb ⊢
          cases hb
          have r1 : RepE N { s with al := s.al + 1 } { b with al := s.al + 1, pos1 := s.pos1, an := s.an } :=
            ⟨F, G, K, rr.start, rr.stop, rr.suf, rr.link, rr.first, rr.sib, rr.chain, rr.nodup, rr.mem, rr.firstNone, rr.sibNew, rr.linkNew, rr.newNode, rfl,
              rr.cur, rr.remainder, rfl, rr.ae, rfl, rr.sl, rr.count, rr.big, rr.bound⟩
          obtain ⟨b1, e1, h1⟩ := addSl_sim r1 hsl (by show s.sl < _; omega) s.an
          refine ⟨b1, ?_, h1⟩
          rw [rr.an, e1, bind_ok]
        · rw [if_neg hdc] at hb ⊢
          have hal : s.al ≠ 0 := by
            intro e
            have h1 := Ukk.vget_prefix hT (kid_char h.ti h.act.an hnx)
            rw [e, Nat.add_zero, h1] at hv
            cases hv
            exact hdc (hae e)
          have hj1 : 1 ≤ s.suffix := by
            obtain ⟨l, l1, -⟩ := h.ti.leafy next (h.ti.kid_ne h.act.an hnx) k1
            have := h.ti.suf l l1
            omega
          have hal2 := h.act.al
          rw [List.length_drop] at hal2
          obtain ⟨b1, e1, hn1, r1⟩ := splitEdge_sim (c := c) (d := d) h.ti rr (by omega) h.act.an hK hnx hdc hj1 rfl
          obtain ⟨b2, e2, r2⟩ := addSl_sim r1 (by show s.sl ≤ s.last + 2; omega) (by show s.sl < _; omega) (s.last + 1)
          cases hns : Ukk.nextSuffix T (Ukk.addSl (s.last + 1) (Ukk.splitEdge c d next s)) with
          | error x => rw [hns] at hb; cases hb
          | ok s' =>
            rw [hns, bind_ok] at hb
            cases hb
            obtain ⟨b3, e3, r3⟩ := nextSuffix_sim r2 (by show s.an < _; omega) hns
            refine ⟨b3, ?_, r3⟩
            rw [e1, bind_ok, hn1, show s.last + 2 - 1 = s.last + 1 by omega, e2, bind_ok, e3, bind_ok]
  · obtain ⟨hno, prev, hp, hf⟩ : s.kid s.an s.ae = none ∧ ∃ prev, (∀ hne : K s.an ≠ [], prev = (K s.an).getLast hne) ∧ find T b = .ok (none, prev) := by
      rcases hnone with ⟨h1, h2, h3⟩ | ⟨h1, h2, h3⟩
      · exact ⟨h1, 0, fun hne => absurd h2 hne, h3⟩
      · exact ⟨h1, _, fun _ => rfl, h3⟩
    rw [hno] at hb
    simp only [body', hf, bind_ok]
    obtain ⟨b1, e1, r1⟩ := addLeaf_sim h.ti rr hl h.act.an hno hp
    obtain ⟨b2, e2, r2⟩ := addSl_sim r1 (by show s.sl ≤ s.last + 1; omega) (by show s.sl < _; omega) s.an
    have han1 : b1.an = s.an := by obtain ⟨_, _, _, q⟩ := r1; exact q.an
    simp only at hb
    cases hns : Ukk.nextSuffix T (Ukk.addSl s.an (Ukk.addLeaf s)) with
    | error x => rw [hns] at hb; cases hb
    | ok s' =>
      rw [hns, bind_ok] at hb
      cases hb
      obtain ⟨b3, e3, r3⟩ := nextSuffix_sim r2 (by show s.an < _; omega) hns
      refine ⟨b3, ?_, r3⟩
      rw [e1, bind_ok, han1, e2, bind_ok, e3, bind_ok]

theorem rem_eq (hr : RepE N s b) : b.remainder = s.remainder ∧ b.al = s.al := by
  obtain ⟨F, G, K, r⟩ := hr
  exact ⟨r.remainder, r.al⟩

theorem loop_sim (hN : 2 ≤ N) (hP : P.length + 1 ≤ N) (hT : P ++ [c] <+: T) : ∀ (fuel : Nat) (s : S) (b : B) (lab : Nat → List UInt8) (j : Nat), Mid P c lab j s →
    RepE N s b → s.remainder + s.al < fuel → ∃ s' b' lab' j', loop T c fuel b = .ok b' ∧ Done (P ++ [c]) lab' j' s' ∧ RepE N s' b'
  | 0, _, _, _, _, _, _, hf => absurd hf (by omega)
  | fuel + 1, s, b, lab, j, h, hr, hf => by
    have hr0 : b.remainder ≠ 0 := by rw [(rem_eq hr).1]; have := h.rem; have := h.jle; omega
    obtain ⟨r, h1, h2⟩ := Ukk.body_ok hT h
    obtain ⟨b1, e1, r1⟩ := body_sim hN hP hT h hr h1
    rw [loop, if_neg hr0, e1, bind_ok]
    rcases h2 with ⟨e, lab', hd⟩ | ⟨e, hlt, hd⟩
    · simp only [e]
      exact ⟨_, _, lab', j, rfl, hd, r1⟩
    · simp only [e, if_true]
      rcases hd with ⟨lab', j', hm⟩ | ⟨lab', hj, hd⟩
      · exact loop_sim hN hP hT fuel _ _ _ _ hm r1 (by omega)
      · have h0 : b1.remainder = 0 := by rw [(rem_eq r1).1, hd.rem]; simp; omega
        cases fuel with
        | zero => omega
        | succ f => exact ⟨_, _, _, _, by rw [loop, if_pos h0], hd, r1⟩

theorem addChar_sim (hN : 2 ≤ N) (hP : P.length + 1 ≤ N) (hT : P ++ [c] <+: T) (h : Done P lab j s) (hr : RepE N s b) :
    ∃ s' b' lab' j', addChar T c b = .ok b' ∧ Done (P ++ [c]) lab' j' s' ∧ RepE N s' b' := by
  refine loop_sim hN hP hT _ (Ukk.begin s) _ lab j (h.begin c) ?_ (by rw [(rem_eq hr).1, (rem_eq hr).2]; show s.remainder + 1 + s.al < _; omega)
  obtain ⟨F, G, K, r⟩ := hr
  exact ⟨F, G, K, r.start, r.stop, r.suf, r.link, r.first, r.sib, r.chain, r.nodup, r.mem, r.firstNone, r.sibNew, r.linkNew, r.newNode, by rw [r.pos1]; rfl, r.cur,
    by rw [r.remainder]; rfl, r.an, r.ae, r.al, rfl, r.count, r.big, r.bound⟩

theorem addChars_sim (hN : 2 ≤ N) (hTN : T.length = N) : ∀ (x : List UInt8) (P : List UInt8) (s : S) (b : B) (lab : Nat → List UInt8) (j : Nat), P ++ x <+: T →
    Done P lab j s → RepE N s b → ∃ s' b' lab' j', addChars T x b = .ok b' ∧ Done (P ++ x) lab' j' s' ∧ RepE N s' b'
  | [], P, s, b, lab, j, _, h, hr => ⟨s, b, lab, j, rfl, by rwa [List.append_nil], hr⟩
  | c :: x, P, s, b, lab, j, hT, h, hr => by
    have hT' : (P ++ [c]) ++ x <+: T := by simpa using hT
    have hP : P.length + 1 ≤ N := by
      have := hT.length_le
      simp at this
      omega
    obtain ⟨s1, b1, lab1, j1, h1, h2, r1⟩ := addChar_sim hN hP ((List.prefix_append ..).trans hT') h hr
    obtain ⟨s2, b2, lab2, j2, h3, h4, r2⟩ := addChars_sim hN hTN x (P ++ [c]) s1 b1 lab1 j1 hT' h2 r1
    exact ⟨s2, b2, lab2, j2, by rw [addChars, h1, bind_ok, h3], by simpa using h4, r2⟩

theorem arr_replicate (n : Nat) : Arr (List.replicate n 0) (fun _ => 0) n := ⟨by simp, fun v hv => by simp [hv]⟩

/-- the root -/
theorem start_ok (hN : 1 ≤ N) : ∃ b0 b, reserve N = .ok b0 ∧ createNode 0 0 b0 = .ok b ∧ RepE N Ukk.init b := by
  obtain ⟨st, en, e1, hst, hen⟩ := createNode_ok (N := N) (b := ⟨List.replicate (2 * N - 1) 0, List.replicate (2 * N - 1) 0, List.replicate (2 * N) 0,
    List.replicate (2 * N) 0, List.replicate (2 * N - 1) 0, List.replicate (2 * N) 0, 0, 0, 0, 0, 0, 0, 0, 0⟩) (arr_replicate _) (arr_replicate _)
    (by show 0 + 1 < 2 * N; omega) 0 0
  have hz : ∀ v, upd (fun _ => 0) (0 + 1) 0 v = 0 := fun v => by simp [upd]
  refine ⟨_, _, by rw [reserve, if_neg (by omega)], e1, fun _ => 0, fun _ => 0, fun _ => [], ?_⟩
  refine ⟨hst.congr fun v _ => (hz v).symm, hen.congr fun v _ => (hz v).symm, arr_replicate _, arr_replicate _, arr_replicate _, arr_replicate _, fun _ _ => rfl,
    fun _ _ => List.nodup_nil, fun _ _ c => ?_, fun _ _ => rfl, fun _ _ => rfl, fun _ _ => rfl, rfl, rfl, rfl, rfl, rfl, rfl, rfl, rfl, ?_, fun _ _ => ⟨rfl, rfl⟩,
    by show 1 ≤ _; omega⟩
  · constructor
    · intro h; cases h
    · rintro ⟨_, h⟩; cases h
  · decide

/-- the tree is built, and the arrays show it -/
theorem build_sim (hN : 2 ≤ T.length) : ∃ s b lab j, build T = .ok (resize b) ∧ Done T lab j s ∧ RepE T.length s b := by
  obtain ⟨b0, b1, e0, e1, r1⟩ := start_ok (N := T.length) (by omega)
  obtain ⟨s, b, lab, j, e2, h2, r2⟩ := addChars_sim hN rfl T [] Ukk.init b1 _ _ (by simp) Ukk.init_done r1
  exact ⟨s, b, lab, j, by rw [build, e0, bind_ok, e1, bind_ok, e2, bind_ok], h2, r2⟩

end Bst
end Tdc
