import Mathlib.Data.List.Nodup
import Mathlib.Data.List.Perm.Subperm
import Verif.Lemmas.UkkonenView
import Verif.Model.BinarySuffixTree

/-!
# The array implementation follows Ukkonen's algorithm on nodes
-/

namespace Tdc
namespace Bst

open Ukk (S upd upd_self upd_ne TI Mid Done bind_ok)

/-! ## arrays -/

/-- the array `l` has `n` entries, given by `f` -/
def Arr (l : List Nat) (f : Nat → Nat) (n : Nat) : Prop := l.length = n ∧ ∀ v, v < n → l[v]? = some (f v)

theorem Arr.get {l : List Nat} {f : Nat → Nat} {n v : Nat} (h : Arr l f n) (hv : v < n) : vget l v = .ok (f v) := by rw [vget, h.2 v hv]

theorem Arr.set {l : List Nat} {f : Nat → Nat} {n v : Nat} (h : Arr l f n) (hv : v < n) (x : Nat) : ∃ l', vset l v x = .ok l' ∧ Arr l' (upd f v x) n := by
  refine ⟨l.set v x, by rw [vset, if_pos (by rw [h.1]; exact hv)], by rw [List.length_set]; exact h.1, ?_⟩
  intro u hu
  by_cases e : u = v
  · subst e
    rw [upd_self, List.getElem?_set_self (by rw [h.1]; exact hv)]
  · rw [upd_ne _ _ e, List.getElem?_set_ne (Ne.symm e), h.2 u hu]

theorem Arr.congr {l : List Nat} {f g : Nat → Nat} {n : Nat} (h : Arr l f n) (e : ∀ v, v < n → g v = f v) : Arr l g n :=
  ⟨h.1, fun v hv => by rw [h.2 v hv, e v hv]⟩

/-! ## linked lists -/

/-- the list of the siblings beginning with `h` -/
def Chain (G : Nat → Nat) : Nat → List Nat → Prop
  | h, [] => h = 0
  | h, x :: xs => h = x ∧ x ≠ 0 ∧ Chain G (G x) xs

theorem Chain.congr {G G' : Nat → Nat} : ∀ {xs : List Nat} {h : Nat}, Chain G h xs → (∀ x ∈ xs, G' x = G x) → Chain G' h xs
  | [], _, hc, _ => hc
  | x :: xs, h, hc, hx => ⟨hc.1, hc.2.1, by
    rw [hx x (List.mem_cons_self ..)]
    exact hc.2.2.congr fun y hy => hx y (List.mem_cons_of_mem _ hy)⟩

theorem Chain.snoc {G G' : Nat → Nat} {p m : Nat} (hm : m ≠ 0) (h1 : G' p = m) (h2 : G' m = 0) : ∀ {xs : List Nat} {h : Nat}, Chain G h (xs ++ [p]) →
    (∀ x ∈ xs, G' x = G x) → Chain G' h (xs ++ [p, m])
  | [], h, hc, _ => ⟨hc.1, hc.2.1, by rw [h1]; exact ⟨rfl, hm, h2⟩⟩
  | x :: xs, h, hc, hx => ⟨hc.1, hc.2.1, by
    rw [hx x (List.mem_cons_self ..)]
    exact Chain.snoc hm h1 h2 hc.2.2 fun y hy => hx y (List.mem_cons_of_mem _ hy)⟩

/-- `m` takes the place of `x` behind `p` -/
theorem Chain.replace {G G' : Nat → Nat} {p x m : Nat} {post : List Nat} (hm : m ≠ 0) (h1 : G' p = m) (h2 : G' m = G x) (h3 : ∀ y ∈ post, G' y = G y) :
    ∀ {pre : List Nat} {h : Nat}, Chain G h (pre ++ p :: x :: post) → (∀ y ∈ pre, G' y = G y) → Chain G' h (pre ++ p :: m :: post)
  | [], h, hc, _ => ⟨hc.1, hc.2.1, by
    rw [h1]
    exact ⟨rfl, hm, by rw [h2]; exact hc.2.2.2.2.congr h3⟩⟩
  | y :: pre, h, hc, hx => ⟨hc.1, hc.2.1, by
    rw [hx y (List.mem_cons_self ..)]
    exact Chain.replace hm h1 h2 h3 hc.2.2 fun z hz => hx z (List.mem_cons_of_mem _ hz)⟩

/-! ## the relation -/

structure Rep (N : Nat) (F G : Nat → Nat) (K : Nat → List Nat) (s : S) (b : B) : Prop where
  start : Arr b.start s.start (2 * N)
  stop : Arr b.stop s.stop (2 * N)
  suf : Arr b.suf s.suf (2 * N)
  link : Arr b.link (fun v => (s.link v).getD 0) (2 * N - 1)
  first : Arr b.first F (2 * N - 1)
  sib : Arr b.sib G (2 * N - 1)
  chain : ∀ v, s.kind v = some .inner → Chain G (F v) (K v)
  nodup : ∀ v, s.kind v = some .inner → (K v).Nodup
  mem : ∀ v, s.kind v = some .inner → ∀ c, c ∈ K v ↔ ∃ ch, s.kid v ch = some c
  firstNone : ∀ v, s.kind v ≠ some .inner → F v = 0
  sibNew : ∀ v, s.last < v → G v = 0
  linkNew : ∀ v, s.last < v → s.link v = none
  newNode : b.newNode = s.last
  pos1 : b.pos1 = s.pos1
  cur : b.cur = s.suffix
  remainder : b.remainder = s.remainder
  an : b.an = s.an
  ae : b.ae = s.ae
  al : b.al = s.al
  sl : b.sl = s.sl
  count : s.last ≤ max 1 (2 * s.suffix)
  big : ∀ v, 2 * N - 1 ≤ v → F v = 0 ∧ G v = 0
  bound : s.last ≤ 2 * N - 1

variable {N : Nat} {F G : Nat → Nat} {K : Nat → List Nat} {s : S} {b : B} {P T : List UInt8} {c : UInt8} {lab : Nat → List UInt8} {j : Nat}

/-- the edge to a child begins with its character -/
theorem kid_char {Q : List UInt8} (h : TI Q lab j s) {v x : Nat} {ch : UInt8} (hv : s.kind v = some .inner) (hx : s.kid v ch = some x) :
    Q[s.start x]? = some ch := by
  obtain ⟨h1, h2, h3⟩ := h.edge v ch x hv hx
  have e := (Ukk.snoc_prefix.1 (h2.trans h3.occ)).2
  rw [List.getElem?_drop] at e
  rw [← e]
  congr 1
  have := h3.le
  omega

/-- the loop over the children -/
theorem findLoop_ok {Q : List UInt8} (h : TI Q lab j s) (hT : Q <+: T) (r : Rep N F G K s b) (hl : s.last < 2 * N - 1) (e : UInt8) :
    ∀ (xs : List Nat) (fuel prev hd : Nat), xs ≠ [] → Chain G hd xs → (∀ x ∈ xs, ∃ ch, s.kid s.an ch = some x) → s.kind s.an = some .inner → xs.length ≤ fuel →
      (∃ pre x post, xs = pre ++ x :: post ∧ s.kid s.an e = some x ∧ findLoop T b e fuel prev hd = .ok (some x, if h : pre = [] then prev else pre.getLast h)) ∨
      ((∀ x ∈ xs, s.kid s.an e ≠ some x) ∧ ∃ h : xs ≠ [], findLoop T b e fuel prev hd = .ok (none, xs.getLast h))
  | [], _, _, _, hne, _, _, _, _ => absurd rfl hne
  | x :: xs, 0, _, _, _, _, _, _, hf => absurd hf (by simp)
  | x :: xs, fuel + 1, prev, hd, _, hc, hk, han, hf => by
    obtain ⟨rfl, h0, hc2⟩ := hc
    obtain ⟨ch, hch⟩ := hk hd (List.mem_cons_self ..)
    have hold := h.old (h.edge s.an ch hd han hch).1
    have e1 : vget b.start hd = .ok (s.start hd) := r.start.get (by omega)
    have e2 : vget T (s.start hd) = .ok ch := Ukk.vget_prefix hT (kid_char h han hch)
    by_cases hce : ch = e
    · subst hce
      exact Or.inl ⟨[], hd, xs, rfl, hch, by rw [findLoop, e1, bind_ok, e2, bind_ok, if_pos rfl]; rfl⟩
    · have e3 : vget b.sib hd = .ok (G hd) := r.sib.get (by omega)
      have hno : s.kid s.an e ≠ some hd := fun hh => hce (h.parent_unique han han hch hh).2
      cases xs with
      | nil =>
        refine Or.inr ⟨fun x hx => by rw [List.mem_singleton.1 hx]; exact hno, by simp, ?_⟩
        have : G hd = 0 := hc2
        rw [findLoop, e1, bind_ok, e2, bind_ok, if_neg hce, e3, bind_ok, if_pos this]
        rfl
      | cons y ys =>
        have hG : G hd = y := hc2.1
        have hG0 : G hd ≠ 0 := by rw [hG]; exact hc2.2.1
        have step : findLoop T b e (fuel + 1) prev hd = findLoop T b e fuel hd (G hd) := by
          rw [findLoop, e1, bind_ok, e2, bind_ok, if_neg hce, e3, bind_ok, if_neg hG0]
        rcases findLoop_ok h hT r hl e (y :: ys) fuel hd (G hd) (by simp) hc2 (fun x hx => hk x (List.mem_cons_of_mem _ hx)) han (by simpa using hf) with
          ⟨pre, x, post, h1, h2, h3⟩ | ⟨h1, h2, h3⟩
        · refine Or.inl ⟨hd :: pre, x, post, by rw [h1]; rfl, h2, ?_⟩
          rw [step, h3]
          by_cases hp : pre = []
          · subst hp
            rfl
          · simp [hp, List.getLast_cons]
        · refine Or.inr ⟨fun x hx => ?_, by simp, ?_⟩
          · rcases List.mem_cons.1 hx with rfl | hx
            · exact hno
            · exact h1 x hx
          · rw [step, h3]
            simp [List.getLast_cons]

theorem kids_length (h : TI P lab j s) (r : Rep N F G K s b) {v : Nat} (hv : s.kind v = some .inner) : (K v).length ≤ s.last + 1 := by
  have hsub : K v ⊆ List.range (s.last + 1) := by
    intro x hx
    obtain ⟨ch, hch⟩ := (r.mem v hv x).1 hx
    have := h.old (h.edge v ch x hv hch).1
    simp
    omega
  have := (List.subperm_of_subset (r.nodup v hv) hsub).length_le
  simpa using this

/-- finding the child -/
theorem find_ok {Q : List UInt8} (h : TI Q lab j s) (hT : Q <+: T) (r : Rep N F G K s b) (hl : s.last < 2 * N - 1) (han : s.kind s.an = some .inner) :
    (∃ pre x post, K s.an = pre ++ x :: post ∧ s.kid s.an s.ae = some x ∧ find T b = .ok (some x, if h : pre = [] then x else pre.getLast h)) ∨
    (s.kid s.an s.ae = none ∧ K s.an = [] ∧ find T b = .ok (none, 0)) ∨
    (s.kid s.an s.ae = none ∧ ∃ h : K s.an ≠ [], find T b = .ok (none, (K s.an).getLast h)) := by
  have hold := h.old (Ukk.inner_ne han)
  have e1 : vget b.first b.an = .ok (F s.an) := by rw [r.an]; exact r.first.get (by omega)
  have hno : (∀ x ∈ K s.an, s.kid s.an s.ae ≠ some x) → s.kid s.an s.ae = none := by
    intro hx
    cases hk : s.kid s.an s.ae with
    | none => rfl
    | some x => exact absurd hk (hx x ((r.mem s.an han x).2 ⟨_, hk⟩))
  have hc := r.chain s.an han
  by_cases hn : K s.an = []
  · right; left
    rw [hn] at hc
    refine ⟨hno (by rw [hn]; simp), hn, ?_⟩
    have : F s.an = 0 := hc
    rw [find, e1, bind_ok, if_pos this, this]
  · have hF : F s.an ≠ 0 := by
      cases hk : K s.an with
      | nil => exact absurd hk hn
      | cons x xs => rw [hk] at hc; rw [hc.1]; exact hc.2.1
    have step : find T b = findLoop T b s.ae (s.last + 1) (F s.an) (F s.an) := by rw [find, e1, bind_ok, if_neg hF, r.ae, r.newNode]
    rcases findLoop_ok h hT r hl s.ae (K s.an) (s.last + 1) (F s.an) (F s.an) hn hc (fun x hx => (r.mem s.an han x).1 hx) han (kids_length h r han) with
      ⟨pre, x, post, h1, h2, h3⟩ | ⟨h1, h2, h3⟩
    · left
      refine ⟨pre, x, post, h1, h2, ?_⟩
      rw [step, h3]
      by_cases hp : pre = []
      · subst hp
        rw [h1] at hc
        simp [hc.1]
      · simp [hp]
    · right; right
      exact ⟨hno h1, hn, by rw [step, h3]⟩

end Bst
end Tdc
